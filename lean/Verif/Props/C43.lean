import Verif.Props.C42
import Verif.Model.Field

/-! # C43 — BusMemory uses each initial value exactly once -/

namespace Pooya.C43

open C42

set_option linter.unusedSectionVars false

variable {K : Type} [Arith K]

theorem zero_iff (t : Ty) (v : Val K) : v = t.zero ↔ IsZero t v := by
  cases t with
  | array n =>
    cases v with
    | array xs =>
      simp only [Ty.zero, Val.array.injEq, IsZero]
      exact List.eq_replicate_iff
    | scalar x => simp [Ty.zero, IsZero]
    | int x => simp [Ty.zero, IsZero]
    | bool x => simp [Ty.zero, IsZero]
  | scalar | int | bool => cases v <;> simp [Ty.zero, IsZero]

theorem fits_iff (t : Ty) (v : Val K) : v.isVTy t.vty = true ↔ Fits t v := by
  cases t <;> cases v <;> simp [Val.isVTy, Ty.vty, Fits]

theorem lookup_mem {iv : InitValues K} {l : Str} {v : Val K} (h : lookupInit iv l = some v) : (l, v) ∈ iv := by
  induction iv with
  | nil => cases h
  | cons p iv ih =>
    obtain ⟨k, x⟩ := p
    unfold lookupInit at h
    split at h
    · rename_i e; subst e; cases h; exact List.mem_cons_self
    · exact List.mem_cons_of_mem _ (ih h)

theorem lookup_none {iv : InitValues K} {l : Str} (h : lookupInit iv l = none) : ∀ p ∈ iv, p.1 ≠ l := by
  induction iv with
  | nil => intro p hp; cases hp
  | cons p iv ih =>
    obtain ⟨k, x⟩ := p
    unfold lookupInit at h
    split at h
    · cases h
    · rename_i e
      intro p hp
      rcases List.mem_cons.1 hp with rfl | hp
      · exact e
      · exact ih h p hp

theorem lookup_of_mem {iv : InitValues K} (hn : (iv.map Prod.fst).Nodup) {l : Str} {v : Val K} (h : (l, v) ∈ iv) : lookupInit iv l = some v := by
  induction iv with
  | nil => cases h
  | cons p iv ih =>
    obtain ⟨k, x⟩ := p
    rw [List.map_cons, List.nodup_cons] at hn
    unfold lookupInit
    rcases List.mem_cons.1 h with e | h
    · cases e; rw [if_pos rfl]
    · rw [if_neg, ih hn.2 h]
      rintro rfl
      exact hn.1 (List.mem_map.2 ⟨_, h, rfl⟩)

/-- The initial value `block_builder` chooses. -/
theorem starts_iff {iv : InitValues K} (hn : (iv.map Prod.fst).Nodup) (lf : BusLeaf) (v : Val K) :
    ((match lookupInit iv (dotted lf.segs) with
      | none => .ok lf.ty.zero
      | some v => if v.isVTy lf.ty.vty then .ok v else .error (.exc .badVariant) : Except Err (Val K)) = .ok v) ↔
    ((dotted lf.segs, v) ∈ iv ∧ Fits lf.ty v ∨ (∀ p ∈ iv, p.1 ≠ dotted lf.segs) ∧ IsZero lf.ty v) := by
  cases hl : lookupInit iv (dotted lf.segs) with
  | none =>
    dsimp only
    constructor
    · intro h; exact .inr ⟨lookup_none hl, (zero_iff _ _).1 (ok_inj h).symm⟩
    · rintro (⟨h, _⟩ | ⟨_, h⟩)
      · exact (lookup_none hl _ h rfl).elim
      · rw [(zero_iff _ _).2 h]
  | some u =>
    dsimp only
    constructor
    · intro h
      by_cases hf : u.isVTy lf.ty.vty = true
      · rw [if_pos hf] at h
        cases h
        exact .inl ⟨lookup_mem hl, (fits_iff _ _).1 hf⟩
      · rw [if_neg hf] at h; cases h
    · rintro (⟨h, h'⟩ | ⟨h, _⟩)
      · have := lookup_of_mem hn h
        rw [hl] at this
        cases this
        rw [if_pos ((fits_iff _ _).2 h')]
      · exact (h _ (lookup_mem hl) rfl).elim

/-- One visit of `BusMemory`. -/
theorem memory_leaf {ibus obus : Entries} (hp : PlainBus ibus) {lf : BusLeaf} (hl : lf ∈ busLeaves ibus)
    (acc : List (Built K)) (iv : InitValues K) (hn : (iv.map Prod.fst).Nodup) (r' : List (Built K) × InitValues K) :
    visitLeaf ibus obus memoryBuilder (acc, iv) (dotted lf.segs) = .ok r' ↔
      ∃ b, r' = (acc ++ [b], iv.filter (fun p => p.1 ≠ dotted lf.segs)) ∧ Starts iv lf b ∧ Joins obus lf b := by
  unfold visitLeaf
  rw [(C03.C03_lookup ibus _ _ (leaf_path hp hl) _).2 (leaf_reaches hp hl)]
  have hlook := C03.C03_lookup obus _ _ (leaf_path hp hl)
  cases ho : busAt obus (dotted lf.segs) with
  | error e =>
    constructor
    · intro h; cases h
    · rintro ⟨b, _, _, hj⟩
      obtain ⟨t, h1, _⟩ := hj.sout
      rw [(hlook _).2 h1] at ho
      cases ho
  | ok so =>
    have hre := (hlook so).1 ho
    show (memoryBuilder (dotted lf.segs) (.val lf.id lf.ty) so iv >>= fun b => .ok (acc ++ [b.1], b.2)) = _ ↔ _
    unfold memoryBuilder
    simp only [connectOne_ok]
    simp only [bind_ok_iff]
    constructor
    · rintro ⟨bv, ⟨v, h1, u, h2, h3⟩, h4⟩
      have hs := (starts_iff hn lf v).1 h1
      by_cases ha : lf.ty.vty.handle.accepts so = true
      · obtain ⟨i, t, rfl, ht⟩ := accepts_val.1 ha
        have e3 := ok_inj h3
        have e4 := ok_inj h4
        subst e3
        exact ⟨⟨dotted lf.segs, lf.ty.vty, lf.id, i, some v⟩, e4.symm, ⟨v, rfl, hs⟩, rfl, rfl, rfl, t, hre, ht⟩
      · rw [if_neg ha] at h2; cases h2
    · rintro ⟨b, rfl, ⟨v, hb, hs⟩, hj⟩
      obtain ⟨t', h1, h2⟩ := hj.sout
      have := (hlook _).2 h1
      rw [ho] at this
      cases this
      refine ⟨(b, iv.filter (fun p => p.1 ≠ dotted lf.segs)), ⟨v, (starts_iff hn lf v).2 hs, (), ?_, ?_⟩, rfl⟩
      · rw [if_pos (accepts_val.2 ⟨_, t', rfl, h2⟩)]
      · obtain ⟨n, ty, si, so, ini⟩ := b
        have e1 := hj.name; have e2 := hj.ty; have e3 := hj.sin
        dsimp only at e1 e2 e3 hb
        subst e1 e2 e3 hb
        rfl

theorem starts_filter {iv : InitValues K} {l : Str} {lf : BusLeaf} (hl : dotted lf.segs ≠ l) (b : Built K) :
    Starts (iv.filter (fun p => p.1 ≠ l)) lf b ↔ Starts iv lf b := by
  unfold Starts
  constructor
  · rintro ⟨v, hv, ⟨h1, h2⟩ | ⟨h1, h2⟩⟩
    · exact ⟨v, hv, .inl ⟨(List.mem_filter.1 h1).1, h2⟩⟩
    · refine ⟨v, hv, .inr ⟨fun p hpm e => ?_, h2⟩⟩
      exact h1 p (List.mem_filter.2 ⟨hpm, by simpa [e] using hl⟩) e
  · rintro ⟨v, hv, ⟨h1, h2⟩ | ⟨h1, h2⟩⟩
    · exact ⟨v, hv, .inl ⟨List.mem_filter.2 ⟨h1, by simpa using hl⟩, h2⟩⟩
    · exact ⟨v, hv, .inr ⟨fun p hpm => h1 p (List.mem_filter.1 hpm).1, h2⟩⟩

theorem forall₂_congr {α β : Type} {R S : α → β → Prop} {l : List α} (h : ∀ a ∈ l, ∀ b, R a b ↔ S a b) (l' : List β) :
    List.Forall₂ R l l' ↔ List.Forall₂ S l l' := by
  induction l generalizing l' with
  | nil => constructor <;> (intro h'; cases h'; exact .nil)
  | cons a l ih =>
    have ih := ih (fun x hx => h x (by simp [hx]))
    have ha := h a (by simp)
    constructor
    · intro h'; cases h' with | cons h1 h2 => exact .cons ((ha _).1 h1) ((ih _).1 h2)
    · intro h'; cases h' with | cons h1 h2 => exact .cons ((ha _).2 h1) ((ih _).2 h2)

theorem memory_fold {ibus obus : Entries} (hp : PlainBus ibus) (L : List BusLeaf) (hL : ∀ lf ∈ L, lf ∈ busLeaves ibus)
    (hd : (L.map BusLeaf.segs).Nodup) (acc : List (Built K)) (iv : InitValues K) (hn : (iv.map Prod.fst).Nodup)
    (r' : List (Built K) × InitValues K) :
    List.foldlM (visitLeaf ibus obus memoryBuilder) (acc, iv) (L.map (fun lf => dotted lf.segs)) = .ok r' ↔
      ∃ bs, r' = (acc ++ bs, iv.filter (fun p => p.1 ∉ L.map (fun lf => dotted lf.segs))) ∧
        List.Forall₂ (fun lf b => Starts iv lf b ∧ Joins obus lf b) L bs := by
  induction L generalizing acc iv with
  | nil =>
    have e : iv.filter (fun p => p.1 ∉ List.map (fun lf : BusLeaf => dotted lf.segs) []) = iv := by simp
    rw [e]
    constructor
    · intro h; cases h; exact ⟨[], by simp, .nil⟩
    · rintro ⟨bs, rfl, hf⟩
      cases hf
      simp
      rfl
  | cons lf L ih =>
    rw [List.map_cons, List.foldlM_cons, bind_ok_iff]
    rw [List.map_cons, List.nodup_cons] at hd
    have hne : ∀ x ∈ L, dotted x.segs ≠ dotted lf.segs := fun x hx e =>
      hd.1 (List.mem_map.2 ⟨x, hx, dotted_inj hp (hL x (by simp [hx])) (hL lf (by simp)) e⟩)
    have hnf : ((iv.filter (fun p => p.1 ≠ dotted lf.segs)).map Prod.fst).Nodup :=
      hn.sublist (List.Sublist.map _ List.filter_sublist)
    have hfil : (iv.filter (fun p => p.1 ≠ dotted lf.segs)).filter (fun p => p.1 ∉ L.map (fun lf => dotted lf.segs)) =
        iv.filter (fun p => p.1 ∉ dotted lf.segs :: L.map (fun lf => dotted lf.segs)) := by
      rw [List.filter_filter]
      apply List.filter_congr
      intro p _
      simp only [List.mem_cons, not_or]
      by_cases h1 : p.1 = dotted lf.segs <;> by_cases h2 : p.1 ∈ L.map (fun lf => dotted lf.segs) <;> simp [h1, h2]
    have hcong : ∀ bs, List.Forall₂ (fun x b => Starts (iv.filter (fun p => p.1 ≠ dotted lf.segs)) x b ∧ Joins obus x b) L bs ↔
        List.Forall₂ (fun x b => Starts iv x b ∧ Joins obus x b) L bs :=
      forall₂_congr fun x hx b => and_congr (starts_filter (hne x hx) b) Iff.rfl
    constructor
    · rintro ⟨r1, h1, h2⟩
      obtain ⟨b, rfl, h3, h4⟩ := (memory_leaf hp (hL lf (by simp)) _ _ hn _).1 h1
      obtain ⟨bs, h5, h6⟩ := (ih (fun x hx => hL x (by simp [hx])) hd.2 _ _ hnf).1 h2
      exact ⟨b :: bs, by rw [h5, hfil]; simp, .cons ⟨h3, h4⟩ ((hcong bs).1 h6)⟩
    · rintro ⟨bs, h, hf⟩
      cases hf with
      | cons hb hbs =>
        rename_i b bs
        refine ⟨(acc ++ [b], iv.filter (fun p => p.1 ≠ dotted lf.segs)), (memory_leaf hp (hL lf (by simp)) _ _ hn _).2 ⟨b, rfl, hb.1, hb.2⟩, ?_⟩
        exact (ih (fun x hx => hL x (by simp [hx])) hd.2 _ _ hnf).2 ⟨bs, by rw [h, hfil]; simp, (hcong bs).2 hbs⟩

/-- Connecting a `BusMemory` succeeds exactly if it creates one memory for each value signal that is not excluded, joining it to the
signal of the output bus with the same dotted label and with the initial value given for that label or zero, every given value is of the
type of its signal and, in debug builds, every given label is one of a memory. (The keys of a `std::map` are unique.) -/
theorem C43_memory (dbg : Bool) (excl : List Str) (iv : InitValues K) (hn : (iv.map Prod.fst).Nodup) (ibus obus : Entries)
    (hp : PlainBus ibus) (bs : List (Built K)) :
    busMemory dbg excl iv ibus obus = .ok bs ↔
      List.Forall₂ (fun lf b => Starts iv lf b ∧ Joins obus lf b) (keptLeaves excl ibus) bs ∧
      (dbg = true → ∀ p ∈ iv, ∃ lf ∈ keptLeaves excl ibus, p.1 = dotted lf.segs) := by
  have hdone : ∀ (L : List BusLeaf) (bs' : List (Built K)),
      ((if dbg && !(iv.filter (fun p => p.1 ∉ L.map (fun lf => dotted lf.segs))).isEmpty then .error (.exc .unusedInit) else .ok bs' : Except Err _) = .ok bs) ↔
      bs' = bs ∧ (dbg = true → ∀ p ∈ iv, ∃ lf ∈ L, p.1 = dotted lf.segs) := by
    intro L bs'
    have hempty : (iv.filter (fun p => p.1 ∉ L.map (fun lf => dotted lf.segs))).isEmpty = true ↔ ∀ p ∈ iv, ∃ lf ∈ L, p.1 = dotted lf.segs := by
      rw [List.isEmpty_iff, List.filter_eq_nil_iff]
      constructor
      · intro h p hpm
        have := h p hpm
        simp only [decide_not, Bool.not_eq_true', decide_eq_false_iff_not, not_not, List.mem_map] at this
        obtain ⟨lf, h1, h2⟩ := this
        exact ⟨lf, h1, h2.symm⟩
      · intro h p hpm
        obtain ⟨lf, h1, h2⟩ := h p hpm
        simp only [decide_not, Bool.not_eq_true', decide_eq_false_iff_not, not_not, List.mem_map]
        exact ⟨lf, h1, h2.symm⟩
    cases dbg with
    | false => simp
    | true =>
      by_cases he : (iv.filter (fun p => p.1 ∉ L.map (fun lf => dotted lf.segs))).isEmpty = true
      · rw [he]
        simpa using fun _ => hempty.1 he
      · rw [Bool.eq_false_iff.2 he]
        simp only [Bool.not_false, Bool.and_true, if_true]
        constructor
        · intro h; cases h
        · rintro ⟨_, h⟩; exact (he (hempty.2 (by simpa using h))).elim
  unfold busMemory
  rw [bind_ok_iff]
  by_cases h0 : [] ∈ excl
  · rw [if_pos h0, kept_all h0]
    have hiv : iv.filter (fun p => p.1 ∉ List.map (fun lf : BusLeaf => dotted lf.segs) []) = iv := by simp
    have hd := hdone [] []
    rw [hiv] at hd
    constructor
    · rintro ⟨r, h1, h2⟩
      cases h1
      obtain ⟨rfl, h3⟩ := hd.1 h2
      exact ⟨.nil, h3⟩
    · rintro ⟨h1, h2⟩
      cases h1
      exact ⟨([], iv), rfl, hd.2 ⟨rfl, h2⟩⟩
  · rw [if_neg h0, visitBus_eq, skips_kept h0]
    simp only [List.nil_append]
    have hnd : ((keptLeaves excl ibus).map BusLeaf.segs).Nodup := (leaves_nodup hp).sublist (List.Sublist.map _ List.filter_sublist)
    constructor
    · rintro ⟨r, h1, h2⟩
      obtain ⟨bs', rfl, h3⟩ := (memory_fold hp _ kept_sub hnd _ _ hn _).1 h1
      obtain ⟨e, h4⟩ := (hdone _ _).1 h2
      rw [List.nil_append] at e
      subst e
      exact ⟨h3, h4⟩
    · rintro ⟨h1, h2⟩
      exact ⟨_, (memory_fold hp _ kept_sub hnd _ _ hn _).2 ⟨bs, rfl, h1⟩, (hdone _ _).2 ⟨by simp, h2⟩⟩

/-- Each given value is the initial value of exactly one memory (in debug builds, where an unused label is rejected). -/
theorem C43_used_once (excl : List Str) (iv : InitValues K) (hn : (iv.map Prod.fst).Nodup) (ibus obus : Entries)
    (hp : PlainBus ibus) (bs : List (Built K)) (h : busMemory true excl iv ibus obus = .ok bs) :
    ∀ p ∈ iv, ∃ (k : Nat) (b : Built K), bs[k]? = some b ∧ b.name = p.1 ∧ b.init = some p.2 ∧ ∀ (k' : Nat) (b' : Built K), bs[k']? = some b' → b'.name = p.1 → k' = k := by
  obtain ⟨h1, h2⟩ := (C43_memory true excl iv hn ibus obus hp bs).1 h
  have hnd : ((keptLeaves excl ibus).map BusLeaf.segs).Nodup := (leaves_nodup hp).sublist (List.Sublist.map _ List.filter_sublist)
  have hlen := h1.length_eq
  have hget : ∀ (k : Nat) (b : Built K), bs[k]? = some b → ∃ lf, (keptLeaves excl ibus)[k]? = some lf ∧ Starts iv lf b ∧ Joins obus lf b := by
    intro k b hb
    obtain ⟨hk, rfl⟩ := List.getElem?_eq_some_iff.1 hb
    have hk' : k < (keptLeaves excl ibus).length := by omega
    exact ⟨_, List.getElem?_eq_getElem hk', List.Forall₂.get h1 hk' hk⟩
  intro p hpm
  obtain ⟨lf, hm, hlab⟩ := h2 rfl p hpm
  obtain ⟨k, hk⟩ := List.mem_iff_getElem?.1 hm
  obtain ⟨hkl, e⟩ := List.getElem?_eq_some_iff.1 hk
  have hkb : k < bs.length := by omega
  obtain ⟨lf', hk', ⟨v, hv, hs⟩, hj⟩ := hget k _ (List.getElem?_eq_getElem hkb)
  rw [hk] at hk'
  cases hk'
  refine ⟨k, bs[k], List.getElem?_eq_getElem hkb, by rw [hj.name, hlab], ?_, ?_⟩
  · rw [hv]
    rcases hs with ⟨hin, _⟩ | ⟨hno, _⟩
    · have a := lookup_of_mem hn hin
      rw [← hlab, lookup_of_mem (l := p.1) (v := p.2) hn hpm] at a
      rw [← Option.some.inj a]
    · exact (hno p hpm hlab).elim
  · intro k' b' hb' hname
    obtain ⟨lf', h3, _, hj'⟩ := hget k' b' hb'
    have hsegs : lf'.segs = lf.segs := dotted_inj hp (kept_sub _ (List.mem_of_getElem? h3)) (kept_sub _ hm) (by rw [← hj'.name, hname, hlab])
    have g1 : ((keptLeaves excl ibus).map BusLeaf.segs)[k']? = some lf.segs := by rw [List.getElem?_map, h3, ← hsegs]; rfl
    have g2 : ((keptLeaves excl ibus).map BusLeaf.segs)[k]? = some lf.segs := by rw [List.getElem?_map, hk]; rfl
    obtain ⟨l1, e1⟩ := List.getElem?_eq_some_iff.1 g1
    exact (List.getElem?_inj l1 hnd).1 (g1.trans g2.symm)

/-- The connections of a `BusMemory` are those of a `BusPipe`. -/
theorem C43_connections (dbg : Bool) (excl : List Str) (iv : InitValues K) (hn : (iv.map Prod.fst).Nodup) (ibus obus : Entries)
    (hp : PlainBus ibus) (bs : List (Built K)) (h : busMemory dbg excl iv ibus obus = .ok bs) :
    List.Forall₂ (Joins obus) (keptLeaves excl ibus) bs :=
  ((C43_memory dbg excl iv hn ibus obus hp bs).1 h).1.imp fun _ _ h => h.2

/-- A value of the wrong type is rejected. -/
theorem C43_wrong_type (dbg : Bool) (excl : List Str) (iv : InitValues K) (hn : (iv.map Prod.fst).Nodup) (ibus obus : Entries)
    (hp : PlainBus ibus) (lf : BusLeaf) (hl : lf ∈ keptLeaves excl ibus) (v : Val K) (hv : (dotted lf.segs, v) ∈ iv) (hf : ¬ Fits lf.ty v) :
    ∀ bs, busMemory dbg excl iv ibus obus ≠ .ok bs := by
  intro bs h
  obtain ⟨h1, _⟩ := (C43_memory dbg excl iv hn ibus obus hp bs).1 h
  obtain ⟨b, ⟨u, _, hs⟩, _⟩ := forall₂_exists.1 ⟨bs, h1⟩ lf hl
  rcases hs with ⟨a, b⟩ | ⟨a, _⟩
  · have := lookup_of_mem hn a
    rw [lookup_of_mem hn hv] at this
    cases this
    exact hf b
  · exact a _ hv rfl

/-! ## Examples -/

theorem kept_ibus : keptLeaves [str "Z.x"] C42.ibus = [⟨[str "a"], 1, .scalar⟩, ⟨[str "Z", str "y"], 4, .array 2⟩, ⟨[str "b"], 5, .int⟩] := by
  simp only [keptLeaves, C42.ibus, busLeaves, List.map_cons, List.map_nil, List.cons_append, List.nil_append, List.filter_cons]
  simp only [show ¬ Excluded [str "Z.x"] [str "a"] by decide +kernel, show Excluded [str "Z.x"] [str "Z", str "x"] by decide +kernel,
    show ¬ Excluded [str "Z.x"] [str "Z", str "y"] by decide +kernel, show ¬ Excluded [str "Z.x"] [str "b"] by decide +kernel]
  rfl

/-- Values for `b` and `Z.y`; `a` starts at zero. -/
def iv : InitValues ℚ := [(str "b", .int 7), (str "Z.y", .array [3, 4])]

example : busMemory true [str "Z.x"] iv C42.ibus C42.obus = .ok
    [⟨str "a", .double, 1, 11, some (.scalar 0)⟩, ⟨str "Z.y", .array, 4, 14, some (.array [3, 4])⟩, ⟨str "b", .int, 5, 15, some (.int 7)⟩] := by
  rw [C43_memory _ _ _ (by decide +kernel) _ _ ibus_plain, kept_ibus]
  refine ⟨.cons ⟨⟨_, rfl, .inr ⟨by decide +kernel, by show (0 : ℚ) = Arith.lit 0; decide +kernel⟩⟩, by decide +kernel, rfl, rfl, .scalar, .last ⟨[_, _], [], rfl, by decide +kernel⟩, rfl⟩
    (.cons ⟨⟨_, rfl, .inl ⟨by decide +kernel, trivial⟩⟩, by decide +kernel, rfl, rfl, .array 2,
    .step ⟨[_], _, rfl, by decide +kernel⟩ (.last ⟨[], _, rfl, by simp⟩), rfl⟩
    (.cons ⟨⟨_, rfl, .inl ⟨by decide +kernel, trivial⟩⟩, by decide +kernel, rfl, rfl, .int, .last ⟨[], _, rfl, by simp⟩, rfl⟩ .nil)), ?_⟩
  intro _ p hpm
  simp only [iv, List.mem_cons, List.not_mem_nil, or_false] at hpm
  rcases hpm with rfl | rfl
  · exact ⟨⟨[str "b"], 5, .int⟩, by simp, by decide +kernel⟩
  · exact ⟨⟨[str "Z", str "y"], 4, .array 2⟩, by simp, by decide +kernel⟩

/-- A `bool` given for the `int` signal `b`. -/
example : ∀ bs, busMemory (K := ℚ) false [str "Z.x"] [(str "b", .bool true)] C42.ibus C42.obus ≠ .ok bs :=
  C43_wrong_type _ _ _ (by decide +kernel) _ _ ibus_plain ⟨[str "b"], 5, .int⟩ (by rw [kept_ibus]; simp) (.bool true) (by decide +kernel) (fun h => h)

end Pooya.C43
