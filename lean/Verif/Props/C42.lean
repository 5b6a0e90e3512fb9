import Verif.Proof.BusBlocks
import Mathlib.Data.List.Forall2
import Mathlib.Tactic.Push

/-! # C42 — Bus blocks create one block per value signal -/

namespace Pooya.C42

set_option linter.unusedSectionVars false

variable {K : Type}

theorem accepts_val {t : Ty} {so : Signal} : t.vty.handle.accepts so = true ↔ ∃ i t', so = .val i t' ∧ t'.vty = t.vty := by
  cases so with
  | bus i es =>
    constructor
    · intro h; cases t <;> simp [Ty.vty, VTy.handle, HandleTy.accepts] at h
    · rintro ⟨i, t', h, _⟩; cases h
  | val i t' =>
    constructor
    · intro h
      refine ⟨i, t', rfl, ?_⟩
      cases t <;> cases t' <;> simp [Ty.vty, VTy.handle, HandleTy.accepts] at h ⊢
    · rintro ⟨i', t'', h, e⟩
      cases h
      cases t <;> cases t' <;> simp [Ty.vty, VTy.handle, HandleTy.accepts] at e ⊢

/-- Connecting a block to a value signal and `so`. -/
theorem connectOne_ok {t : Ty} {i : SigId} {so : Signal} :
    connectOne t.vty (.val i t) so = if t.vty.handle.accepts so then .ok () else .error (.exc .invalidType) := by
  unfold connectOne
  rw [if_pos (accepts_val.2 ⟨i, t, rfl, rfl⟩)]

theorem ok_inj {α : Type} {a b : α} (h : (Except.ok a : Except Err α) = .ok b) : a = b := by cases h; rfl

/-- One visit of `BusPipe`. -/
theorem pipe_leaf {ibus obus : Entries} (hp : PlainBus ibus) {lf : BusLeaf} (hl : lf ∈ busLeaves ibus)
    (r : List (Built K) × Unit) (r' : List (Built K) × Unit) :
    visitLeaf ibus obus pipeBuilder r (dotted lf.segs) = .ok r' ↔
      ∃ b, r' = (r.1 ++ [b], ()) ∧ b.init = none ∧ Joins obus lf b := by
  unfold visitLeaf
  rw [(C03.C03_lookup ibus _ _ (leaf_path hp hl) _).2 (leaf_reaches hp hl)]
  have hlook := C03.C03_lookup obus _ _ (leaf_path hp hl)
  cases ho : busAt obus (dotted lf.segs) with
  | error e =>
    constructor
    · intro h; cases h
    · rintro ⟨b, _, _, hj⟩
      obtain ⟨t, h1, _⟩ := hj.sout
      rw [(hlook _).2 h1] at ho
      cases ho
  | ok so =>
    have hre := (hlook so).1 ho
    show (pipeBuilder (dotted lf.segs) (.val lf.id lf.ty) so r.2 >>= fun b => .ok (r.1 ++ [b.1], b.2)) = _ ↔ _
    unfold pipeBuilder
    simp only [connectOne_ok]
    by_cases ha : lf.ty.vty.handle.accepts so = true
    · rw [if_pos ha]
      obtain ⟨i, t, rfl, ht⟩ := accepts_val.1 ha
      constructor
      · intro h
        exact ⟨⟨dotted lf.segs, lf.ty.vty, lf.id, i, none⟩, (ok_inj h).symm, rfl, rfl, rfl, rfl, t, hre, ht⟩
      · rintro ⟨b, rfl, hb, hj⟩
        obtain ⟨t', h1, _⟩ := hj.sout
        have := (hlook _).2 h1
        rw [ho] at this
        obtain ⟨n, ty, si, so, ini⟩ := b
        cases this
        have e1 := hj.name; have e2 := hj.ty; have e3 := hj.sin
        dsimp only at e1 e2 e3 hb
        subst e1 e2 e3 hb
        rfl
    · rw [if_neg ha]
      constructor
      · intro h; cases h
      · rintro ⟨b, _, _, hj⟩
        obtain ⟨t', h1, h2⟩ := hj.sout
        have := (hlook _).2 h1
        rw [ho] at this
        cases this
        exact (ha (accepts_val.2 ⟨_, t', rfl, h2⟩)).elim

theorem bind_ok_iff {α β : Type} {x : Except Err α} {f : α → Except Err β} {b : β} :
    (x >>= f) = .ok b ↔ ∃ a, x = .ok a ∧ f a = .ok b := by
  cases x with
  | error e =>
    constructor
    · intro h; cases h
    · rintro ⟨a, h, _⟩; cases h
  | ok a =>
    constructor
    · intro h; exact ⟨a, rfl, h⟩
    · rintro ⟨a', h, h'⟩; cases h; exact h'

theorem pipe_fold {ibus obus : Entries} (hp : PlainBus ibus) (L : List BusLeaf) (hL : ∀ lf ∈ L, lf ∈ busLeaves ibus)
    (acc : List (Built K)) (r' : List (Built K) × Unit) :
    List.foldlM (visitLeaf ibus obus pipeBuilder) (acc, ()) (L.map (fun lf => dotted lf.segs)) = .ok r' ↔
      ∃ bs, r'.1 = acc ++ bs ∧ List.Forall₂ (fun lf b => b.init = none ∧ Joins obus lf b) L bs := by
  induction L generalizing acc with
  | nil =>
    constructor
    · intro h; cases h; exact ⟨[], by simp, .nil⟩
    · rintro ⟨bs, h, hf⟩
      cases hf
      simp at h
      subst h
      rfl
  | cons lf L ih =>
    rw [List.map_cons, List.foldlM_cons, bind_ok_iff]
    constructor
    · rintro ⟨r1, h1, h2⟩
      obtain ⟨b, rfl, h3, h4⟩ := (pipe_leaf hp (hL lf (by simp)) _ _).1 h1
      obtain ⟨bs, h5, h6⟩ := (ih (fun x hx => hL x (by simp [hx])) _).1 h2
      exact ⟨b :: bs, by rw [h5]; simp, .cons ⟨h3, h4⟩ h6⟩
    · rintro ⟨bs, h, hf⟩
      cases hf with
      | cons hb hbs =>
        rename_i b bs
        refine ⟨(acc ++ [b], ()), (pipe_leaf hp (hL lf (by simp)) _ _).2 ⟨b, rfl, hb.1, hb.2⟩, ?_⟩
        exact (ih (fun x hx => hL x (by simp [hx])) _).2 ⟨bs, by rw [h]; simp, hbs⟩

theorem kept_sub {excl : List Str} {es : Entries} : ∀ lf ∈ keptLeaves excl es, lf ∈ busLeaves es := fun _ h => (List.mem_filter.1 h).1

/-- Connecting a `BusPipe` succeeds exactly if it creates, in the order of the input bus, one block for each value signal that is not
excluded, joining it to the signal of the output bus with the same dotted label. -/
theorem C42_pipe (excl : List Str) (ibus obus : Entries) (hp : PlainBus ibus) (bs : List (Built K)) :
    busPipe excl ibus obus = .ok bs ↔ List.Forall₂ (fun lf b => b.init = none ∧ Joins obus lf b) (keptLeaves excl ibus) bs := by
  unfold busPipe
  rw [bind_ok_iff]
  by_cases h0 : [] ∈ excl
  · rw [if_pos h0, kept_all h0]
    constructor
    · rintro ⟨r, h1, h2⟩
      cases h1
      cases h2
      exact .nil
    · intro h
      cases h
      exact ⟨_, rfl, rfl⟩
  · rw [if_neg h0, visitBus_eq, skips_kept h0]
    simp only [List.nil_append]
    constructor
    · rintro ⟨r, h1, h2⟩
      cases h2
      obtain ⟨bs, e, h⟩ := (pipe_fold hp _ kept_sub _ _).1 h1
      rw [e]
      exact h
    · intro h
      exact ⟨(bs, ()), (pipe_fold hp _ kept_sub _ _).2 ⟨bs, rfl, h⟩, rfl⟩

theorem forall₂_exists {α β : Type} {R : α → β → Prop} {l : List α} : (∃ l', List.Forall₂ R l l') ↔ ∀ a ∈ l, ∃ b, R a b := by
  induction l with
  | nil => exact ⟨fun _ a h => by simp at h, fun _ => ⟨[], .nil⟩⟩
  | cons a l ih =>
    constructor
    · rintro ⟨l', h⟩
      cases h with
      | cons h1 h2 =>
        intro x hx
        rcases List.mem_cons.1 hx with rfl | hx
        · exact ⟨_, h1⟩
        · exact ih.1 ⟨_, h2⟩ x hx
    · intro h
      obtain ⟨b, hb⟩ := h a (by simp)
      obtain ⟨l', hl⟩ := ih.2 (fun x hx => h x (by simp [hx]))
      exact ⟨b :: l', .cons hb hl⟩

/-- It throws exactly if the output bus lacks a label or has a signal of another type there. -/
theorem C42_pipe_throws (excl : List Str) (ibus obus : Entries) (hp : PlainBus ibus) :
    (∃ x, busPipe (K := K) excl ibus obus = .error (.exc x)) ↔
      ∃ lf ∈ keptLeaves excl ibus, ∀ i t, Reaches obus lf.segs (.val i t) → t.vty ≠ lf.ty.vty := by
  have hok := C42_pipe (K := K) excl ibus obus hp
  have hex : (∃ bs, busPipe (K := K) excl ibus obus = .ok bs) ↔ ∀ lf ∈ keptLeaves excl ibus, ∃ i t, Reaches obus lf.segs (.val i t) ∧ t.vty = lf.ty.vty := by
    simp only [hok]
    rw [forall₂_exists]
    constructor
    · intro h lf hlf
      obtain ⟨b, _, hj⟩ := h lf hlf
      obtain ⟨t, h1, h2⟩ := hj.sout
      exact ⟨_, t, h1, h2⟩
    · intro h lf hlf
      obtain ⟨i, t, h1, h2⟩ := h lf hlf
      exact ⟨⟨dotted lf.segs, lf.ty.vty, lf.id, i, none⟩, rfl, rfl, rfl, rfl, t, h1, h2⟩
  have herr : ∀ e, busPipe (K := K) excl ibus obus = .error e → ∃ x, e = .exc x := by
    intro e he
    unfold busPipe at he
    by_cases h0 : [] ∈ excl
    · rw [if_pos h0] at he; cases he
    · rw [if_neg h0, visitBus_eq, skips_kept h0] at he
      simp only [List.nil_append] at he
      have key : ∀ (L : List BusLeaf) (_ : ∀ lf ∈ L, lf ∈ busLeaves ibus) (r : List (Built K) × Unit) (e : Err),
          List.foldlM (visitLeaf ibus obus pipeBuilder) r (L.map (fun lf => dotted lf.segs)) = .error e → ∃ x, e = .exc x := by
        intro L
        induction L with
        | nil => intro _ r e h; cases h
        | cons lf L ih =>
          intro hL r e h
          rw [List.map_cons, List.foldlM_cons] at h
          have hl := hL lf (by simp)
          cases hv : visitLeaf ibus obus pipeBuilder r (dotted lf.segs) with
          | ok r1 =>
            rw [hv] at h
            exact ih (fun x hx => hL x (by simp [hx])) r1 e h
          | error e' =>
            rw [hv] at h
            cases h
            unfold visitLeaf at hv
            rw [(C03.C03_lookup ibus _ _ (leaf_path hp hl) _).2 (leaf_reaches hp hl)] at hv
            cases ho : busAt obus (dotted lf.segs) with
            | error e'' =>
              rw [ho] at hv
              cases hv
              obtain ⟨x, h1, _⟩ := (C03.C03_throws obus _ _ (leaf_path hp hl) _).1 ho
              exact ⟨x, h1⟩
            | ok so =>
              rw [ho] at hv
              replace hv : (pipeBuilder (dotted lf.segs) (.val lf.id lf.ty) so r.2 >>= fun b => (.ok (r.1 ++ [b.1], b.2) : Except Err _)) = .error e := hv
              unfold pipeBuilder at hv
              simp only [connectOne_ok] at hv
              split at hv
              · cases hv
              · cases hv; exact ⟨_, rfl⟩
      cases hf : List.foldlM (visitLeaf ibus obus pipeBuilder) (([], ()) : List (Built K) × Unit)
          ((keptLeaves excl ibus).map (fun lf => dotted lf.segs)) with
      | ok r => rw [hf] at he; cases he
      | error e' =>
        rw [hf] at he
        cases he
        exact key _ kept_sub _ _ hf
  constructor
  · rintro ⟨x, hx⟩
    by_contra hcon
    push Not at hcon
    obtain ⟨bs, hb⟩ := hex.2 hcon
    rw [hx] at hb
    cases hb
  · rintro ⟨lf, h1, h2⟩
    cases hb : busPipe (K := K) excl ibus obus with
    | ok bs =>
      obtain ⟨i, t, h3, h4⟩ := hex.1 ⟨bs, hb⟩ lf h1
      exact (h2 i t h3 h4).elim
    | error e =>
      obtain ⟨x, rfl⟩ := herr e hb
      exact ⟨x, rfl⟩

/-! ## Examples -/

def ibus : Entries :=
  [(str "a", .val 1 .scalar), (str "Z", .bus 2 [(str "x", .val 3 .bool), (str "y", .val 4 (.array 2))]), (str "b", .val 5 .int)]

def obus : Entries :=
  [(str "b", .val 15 .int), (str "Z", .bus 12 [(str "y", .val 14 (.array 2)), (str "x", .val 13 .bool)]), (str "a", .val 11 .scalar)]

theorem ibus_plain : PlainBus ibus := by
  simp only [ibus, PlainBus]
  decide +kernel

example : busPipe (K := Nat) [str "Z.x"] ibus obus = .ok
    [⟨str "a", .double, 1, 11, none⟩, ⟨str "Z.y", .array, 4, 14, none⟩, ⟨str "b", .int, 5, 15, none⟩] := by
  rw [C42_pipe _ _ _ ibus_plain]
  have : keptLeaves [str "Z.x"] ibus = [⟨[str "a"], 1, .scalar⟩, ⟨[str "Z", str "y"], 4, .array 2⟩, ⟨[str "b"], 5, .int⟩] := by
    simp only [keptLeaves, ibus, busLeaves, List.map_cons, List.map_nil, List.cons_append, List.nil_append, List.filter_cons]
    simp only [show ¬ Excluded [str "Z.x"] [str "a"] by decide +kernel, show Excluded [str "Z.x"] [str "Z", str "x"] by decide +kernel,
      show ¬ Excluded [str "Z.x"] [str "Z", str "y"] by decide +kernel, show ¬ Excluded [str "Z.x"] [str "b"] by decide +kernel]
    rfl
  rw [this]
  refine .cons ⟨rfl, by decide +kernel, rfl, rfl, .scalar, .last ⟨[_, _], [], rfl, by decide +kernel⟩, rfl⟩ (.cons ⟨rfl, by decide +kernel, rfl, rfl, .array 2,
    .step ⟨[_], _, rfl, by decide +kernel⟩ (.last ⟨[], _, rfl, by simp⟩), rfl⟩ (.cons ⟨rfl, by decide +kernel, rfl, rfl, .int, .last ⟨[], _, rfl, by simp⟩, rfl⟩ .nil))

/-- The output bus lacks `Z.y`. -/
example : ∃ x, busPipe (K := Nat) [] ibus [(str "a", .val 11 .scalar), (str "Z", .bus 12 [(str "x", .val 13 .bool)]), (str "b", .val 15 .int)] =
    .error (.exc x) := by
  rw [C42_pipe_throws _ _ _ ibus_plain]
  refine ⟨⟨[str "Z", str "y"], 4, .array 2⟩, by simp [keptLeaves, busLeaves, ibus, Excluded], fun i t h => ?_⟩
  have := (C03.C03_lookup _ (str "Z.y") _ ⟨by simp, by decide +kernel, by decide +kernel⟩ _).2 h
  have e : busAt [(str "a", .val 11 .scalar), (str "Z", .bus 12 [(str "x", .val 13 .bool)]), (str "b", .val 15 .int)] (str "Z.y") = .error (.exc .labelNotFound) := by
    rw [C03.C03_throws _ (str "Z.y") [str "Z", str "y"] ⟨by simp, by decide +kernel, by decide +kernel⟩]
    exact ⟨_, rfl, .deeper ⟨[_], _, rfl, by decide +kernel⟩ (by simp) (.missing (by decide +kernel))⟩
  rw [this] at e
  cases e

end Pooya.C42
