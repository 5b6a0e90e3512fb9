import Verif.Props.C72
import Verif.Spec.Linear

/-! Blocks, steps and passages keep linear relations between simulations (for C75, C76). -/

namespace Pooya.Superpose

open Pooya C69 Within

set_option linter.unusedSectionVars false

section
variable {F I : Type} [_root_.Field F] {M A B C : Submodule F (I → F)} {v a b r : I → Val F}

theorem mem_diag {x : I → F} : x ∈ diag F I ↔ ∀ i j, x i = x j := Iff.rfl

theorem const_mem (x : F) : (fun _ => x) ∈ diag F I := fun _ _ => rfl

theorem _root_.Pooya.Lin.mono (h : Lin A v) (hab : A ≤ B) : Lin B v := by
  rcases h with ⟨x, hx, e⟩ | ⟨n, x, hx, e⟩ | ⟨h, w⟩
  · exact .inl ⟨x, hab hx, e⟩
  · exact .inr (.inl ⟨n, x, fun j => hab (hx j), e⟩)
  · exact .inr (.inr ⟨h.trans hab, w⟩)

theorem _root_.Pooya.Lin.same (h : diag F I ≤ M) (w : Val F) : Lin M (fun _ => w) := .inr (.inr ⟨h, w, rfl⟩)

theorem _root_.Pooya.Lin.zero {w : Val F} (h : w.IsZero) : Lin M (fun _ => w) := by
  unfold Val.IsZero at h
  split at h
  · subst h; exact .inl ⟨0, M.zero_mem, rfl⟩
  · rename_i xs
    refine .inr (.inl ⟨xs.length, fun _ => 0, fun _ => M.zero_mem, ?_⟩)
    funext i
    congr 1
    refine List.ext_getElem (by simp) fun j h1 h2 => ?_
    rw [List.getElem_ofFn]
    exact h _ (List.getElem_mem h1)
  · exact h.elim

/-- Values that are the same in all simulations. -/
theorem _root_.Pooya.Lin.eq (h : Lin M v) (hd : M ≤ diag F I) (i j : I) : v i = v j := by
  rcases h with ⟨x, hx, rfl⟩ | ⟨n, x, hx, rfl⟩ | ⟨_, w, rfl⟩
  · exact congrArg _ (hd hx i j)
  · exact congrArg _ (congrArg _ (funext fun k => hd (hx k) i j))
  · rfl

/-- Numbers or arrays. -/
def Real (M : Submodule F (I → F)) (v : I → Val F) : Prop :=
  (∃ x ∈ M, v = fun i => .scalar (x i)) ∨ (∃ (n : Nat) (x : Fin n → I → F), (∀ j, x j ∈ M) ∧ v = fun i => .array (List.ofFn fun j => x j i))

theorem Real.lin (h : Real M v) : Lin M v := by
  rcases h with h | h
  · exact .inl h
  · exact .inr (.inl h)

theorem _root_.Pooya.Lin.real (h : Lin M v) {i : I} (hi : (∃ x, v i = .scalar x) ∨ ∃ l, v i = .array l) : Real M v := by
  rcases h with h | h | ⟨h, w, rfl⟩
  · exact .inl h
  · exact .inr h
  · rcases hi with ⟨x, rfl⟩ | ⟨l, rfl⟩
    · exact .inl ⟨_, h (const_mem x), rfl⟩
    · refine .inr ⟨l.length, fun j _ => l[j], fun j => h (const_mem _), ?_⟩
      funext i
      have : List.ofFn (fun j : Fin l.length => l[j]) = l := List.ofFn_getElem
      rw [this]

theorem both_ofFn {f : F → F → F} {n m : Nat} {x : Fin n → F} {y : Fin m → F} {r : Val F} (h : Both f (.array (List.ofFn x)) (.array (List.ofFn y)) r) :
    ∃ e : n = m, r = .array (List.ofFn fun j => f (x j) (y (Fin.cast e j))) := by
  generalize hx : List.ofFn x = lx at h
  generalize hy : List.ofFn y = ly at h
  cases h with
  | @array k p q =>
    have e1 := List.ofFn_inj'.1 hx
    have e2 := List.ofFn_inj'.1 hy
    cases e1
    cases e2
    exact ⟨rfl, rfl⟩

theorem both_real {f : F → F → F} {a b r : Val F} (h : Both f a b r) : ((∃ x, a = .scalar x) ∧ ∃ x, b = .scalar x) ∨ ((∃ l, a = .array l) ∧ ∃ l, b = .array l) := by
  cases h
  · exact .inl ⟨⟨_, rfl⟩, _, rfl⟩
  · exact .inr ⟨⟨_, rfl⟩, _, rfl⟩

theorem _root_.Pooya.Lin.both [Nonempty I] {f : I → F → F → F} (hf : ∀ x ∈ A, ∀ y ∈ B, (fun i => f i (x i) (y i)) ∈ C) (ha : Lin A a) (hb : Lin B b)
    (h : ∀ i, Both (f i) (a i) (b i) (r i)) : Lin C r := by
  obtain ⟨i0⟩ := ‹Nonempty I›
  have k0 := both_real (h i0)
  have ra : Real A a := ha.real (i := i0) (k0.imp And.left And.left)
  have rb : Real B b := hb.real (i := i0) (k0.imp And.right And.right)
  rcases ra with ⟨x, hx, rfl⟩ | ⟨n, x, hx, rfl⟩ <;> rcases rb with ⟨y, hy, rfl⟩ | ⟨m, y, hy, rfl⟩
  · refine .inl ⟨_, hf x hx y hy, funext fun i => ?_⟩
    have := h i
    generalize r i = ri at this
    cases this
    rfl
  · rcases k0 with ⟨_, _, k⟩ | ⟨⟨_, k⟩, _⟩ <;> cases k
  · rcases k0 with ⟨⟨_, k⟩, _⟩ | ⟨_, _, k⟩ <;> cases k
  · obtain ⟨e, _⟩ := both_ofFn (h i0)
    subst e
    refine .inr (.inl ⟨n, _, fun j => hf _ (hx j) _ (hy j), funext fun i => ?_⟩)
    obtain ⟨_, e⟩ := both_ofFn (h i)
    exact e

end

section
variable {F I : Type} [_root_.Field F] [LinearOrder F]
attribute [local instance] Arith.exact
variable {A B C : Submodule F (I → F)} {v a b r : I → Val F}

theorem _root_.Pooya.Lin.scaled [Nonempty I] {k : Val F} (ha : Lin A a) (h : ∀ i, Scaled k (a i) (r i)) : Lin A r := by
  obtain ⟨i0⟩ := ‹Nonempty I›
  have key : (∃ x, k = .scalar x) ∨ ∃ n, k = .int n := by
    have := h i0
    generalize r i0 = ri, a i0 = ai at this
    cases this
    · exact .inl ⟨_, rfl⟩
    · exact .inr ⟨_, rfl⟩
    · exact .inl ⟨_, rfl⟩
  rcases key with ⟨x, rfl⟩ | ⟨n, rfl⟩
  · have hr : Real A a := by
      refine ha.real (i := i0) ?_
      have := h i0
      generalize r i0 = ri, a i0 = ai at this
      cases this
      · exact .inl ⟨_, rfl⟩
      · exact .inr ⟨_, rfl⟩
    rcases hr with ⟨y, hy, rfl⟩ | ⟨n, y, hy, rfl⟩
    · refine .inl ⟨_, A.smul_mem x hy, funext fun i => ?_⟩
      have := h i
      generalize r i = ri at this
      cases this
      rfl
    · refine .inr (.inl ⟨n, _, fun j => A.smul_mem x (hy j), funext fun i => ?_⟩)
      have := h i
      simp only at this
      generalize hz : List.ofFn (fun j => y j i) = z, r i = ri at this
      cases this with
      | array _ q =>
        have e1 := List.ofFn_inj'.1 hz
        cases e1
        rfl
  · rcases ha with ⟨y, hy, rfl⟩ | ⟨n, y, hy, rfl⟩ | ⟨hd, w, rfl⟩
    · have := h i0; cases this
    · have := h i0; cases this
    · refine .inr (.inr ⟨hd, r i0, funext fun i => ?_⟩)
      have h1 := h i
      have h2 := h i0
      generalize r i = ri at h1
      generalize r i0 = rj at h2
      cases h1
      cases h2
      rfl

variable {M : SigId → Submodule F (I → F)} {c : I → F} {val : I → SigId → Option (Val F)} {l : Leaf F} {mem mem' : I → Mem F} {t : F}

/-- Sums and products of several signals. -/
theorem folded [Nonempty I] {f : F → F → F} {xs : List SigId} (hf : ∀ s ∈ xs, ∀ x ∈ A, ∀ y ∈ M s, (fun i => f (x i) (y i)) ∈ A) (hon : ∀ s ∈ xs, On M val s) :
    ∀ {a r : I → Val F}, Lin A a → (∀ i, Folded (val i) f (a i) xs (r i)) → Lin A r := by
  induction xs with
  | nil =>
    intro a r ha h
    have : r = a := funext fun i => by
      have := h i
      generalize r i = ri, a i = ai at this
      cases this
      rfl
    rw [this]; exact ha
  | cons s xs ih =>
    intro a r ha h
    have key : ∀ i, ∃ v b, val i s = some v ∧ Both f (a i) v b ∧ Folded (val i) f b xs (r i) := fun i => by
      have := h i
      generalize r i = ri, a i = ai at this ⊢
      cases this with
      | cons e1 e2 e3 => exact ⟨_, _, e1, e2, e3⟩
    choose v b e1 e2 e3 using key
    obtain ⟨u, hu, hl⟩ := hon s (.head _)
    have : v = u := funext fun i => Option.some.inj ((e1 i).symm.trans (hu i))
    subst this
    exact ih (fun s hs => hf s (.tail _ hs)) (fun s hs => hon s (.tail _ hs)) (Lin.both (hf s (.head _)) ha hl e2) e3

theorem Folded.split {val : SigId → Option (Val F)} {f : F → F → F} {xs ys : List SigId} : ∀ {a r : Val F}, Folded val f a (xs ++ ys) r → ∃ b, Folded val f a xs b ∧ Folded val f b ys r := by
  induction xs with
  | nil => exact fun h => ⟨_, .nil _, h⟩
  | cons s xs ih =>
    intro a r h
    cases h with
    | cons e1 e2 e3 =>
      obtain ⟨b, h1, h2⟩ := ih e3
      exact ⟨b, .cons e1 e2 h1, h2⟩

theorem mul_diag {x y : I → F} (hx : x ∈ A) (hy : y ∈ diag F I) : (fun i => x i *. y i) ∈ A := by
  rcases isEmpty_or_nonempty I with h | ⟨⟨i0⟩⟩
  · rw [Subsingleton.elim (fun i => x i *. y i) 0]; exact A.zero_mem
  · have : (fun i => x i *. y i) = y i0 • x := funext fun i => by
      show x i * y i = y i0 * x i
      rw [hy i i0, mul_comm]
    rw [this]; exact A.smul_mem _ hx

theorem div_diag {x y : I → F} (hx : x ∈ A) (hy : y ∈ diag F I) : (fun i => x i /. y i) ∈ A := by
  have : (fun i => x i /. y i) = fun i => x i *. ((y i)⁻¹) := funext fun i => div_eq_mul_inv _ _
  rw [this]
  exact mul_diag hx fun i j => congrArg _ (hy i j)

theorem shows_same {xs : List SigId} (hon : ∀ s ∈ xs, On M val s) (hd : ∀ s ∈ xs, M s ≤ diag F I) {i j : I} {vs ws : List (Val F)} (h1 : Shows (val i) xs vs) (h2 : Shows (val j) xs ws) : vs = ws := by
  induction h1 generalizing ws with
  | nil => cases h2; rfl
  | @cons s v xs vs e _ ih =>
    cases h2 with
    | @cons _ w _ ws e' h2 =>
      obtain ⟨u, hu, hl⟩ := hon s (.head _)
      rw [hu] at e e'
      rw [ih (fun s hs => hon s (.tail _ hs)) (fun s hs => hd s (.tail _ hs)) h2, ← Option.some.inj e, ← Option.some.inj e', Lin.eq hl (hd s (.head _)) i j]

theorem given_same {os : List SigId} {vs : List (Option (Val F))} (hlen : os.length ≤ vs.length) (hnone : none ∉ vs) (h : ∀ i, Given (val i) os vs) {o : SigId} (ho : o ∈ os) : ∃ w, ∀ i, val i o = some w := by
  obtain ⟨k, hk, rfl⟩ := List.getElem_of_mem ho
  have hk' : k < vs.length := Nat.lt_of_lt_of_le hk hlen
  cases e : vs[k] with
  | none => exact absurd (e ▸ List.getElem_mem hk') hnone
  | some w => exact ⟨w, fun i => h i k _ w (List.getElem?_eq_getElem hk) (by rw [List.getElem?_eq_getElem hk', e])⟩

/-- The value a `Delay` finds. -/
theorem recalled [Nonempty I] [IsStrictOrderedRing F] {ts : List F} {xs : List (I → Val F)} {q : F} {init : I → Val F} (hxs : ∀ v ∈ xs, Lin A v)
    (hq : ∀ i, ∃ init', Recalled (ts.map (· + c i)) (xs.map (· i)) (q + c i) init' (r i) ∧ ((∃ t0 rest, ts.map (· + c i) = t0 :: rest ∧ ((q + c i) <=. t0) = true) → init' = init i))
    (hinit : (∃ t0 rest, ts = t0 :: rest ∧ q ≤ t0) → Lin A init) : Lin A r := by
  obtain ⟨i0⟩ := ‹Nonempty I›
  have hle : ∀ (s : F) i, ((q + c i) <=. (s + c i)) = decide (q ≤ s) := fun s i => by
    show decide (q + c i ≤ s + c i) = _
    simp only [add_le_add_iff_right]
  have hle' : ∀ (s : F) i, ((s + c i) <=. (q + c i)) = decide (s ≤ q) := fun s i => by
    show decide (s + c i ≤ q + c i) = _
    simp only [add_le_add_iff_right]
  have htn : ∀ i, (ts.map (· + c i)).getLast? = ts.getLast?.map (· + c i) := fun i => List.getLast?_map
  cases ts with
  | nil =>
    obtain ⟨_, h, _⟩ := hq i0
    generalize r i0 = ri at h
    cases h with
    | before e => cases e
    | after e => cases e
    | between e => cases e
  | cons t0 rest =>
    by_cases h0 : q ≤ t0
    · have : r = init := funext fun i => by
        obtain ⟨init', h, e⟩ := hq i
        have e := e ⟨_, _, rfl, (hle t0 i).trans (decide_eq_true h0)⟩
        rw [← e]
        generalize r i = ri at h ⊢
        cases h with
        | before => rfl
        | after e1 e2 => rw [List.map_cons] at e1; cases e1; rw [hle, decide_eq_false_iff_not] at e2; exact absurd h0 e2
        | between e1 e2 => rw [List.map_cons] at e1; cases e1; rw [hle, decide_eq_false_iff_not] at e2; exact absurd h0 e2
      rw [this]
      exact hinit ⟨_, _, rfl, h0⟩
    · obtain ⟨tn, etn⟩ : ∃ tn, (t0 :: rest).getLast? = some tn := ⟨_, List.getLast?_eq_getLast_of_ne_nil (List.cons_ne_nil _ _)⟩
      by_cases hn : tn ≤ q
      · cases exs : xs.getLast? with
        | none =>
          obtain ⟨_, h, _⟩ := hq i0
          generalize r i0 = ri at h
          cases h with
          | before e1 e2 => rw [List.map_cons] at e1; cases e1; rw [hle, decide_eq_true_iff] at e2; exact absurd e2 h0
          | after _ _ _ _ e => rw [List.getLast?_map, exs] at e; cases e
          | between _ _ e3 e4 => rw [htn, etn, Option.map_some] at e3; cases e3; rw [hle', decide_eq_false_iff_not] at e4; exact absurd hn e4
        | some v =>
          have : r = v := funext fun i => by
            obtain ⟨_, h, _⟩ := hq i
            generalize r i = ri at h ⊢
            cases h with
            | before e1 e2 => rw [List.map_cons] at e1; cases e1; rw [hle, decide_eq_true_iff] at e2; exact absurd e2 h0
            | after _ _ _ _ e => rw [List.getLast?_map, exs, Option.map_some] at e; exact (Option.some.inj e).symm
            | between _ _ e3 e4 => rw [htn, etn, Option.map_some] at e3; cases e3; rw [hle', decide_eq_false_iff_not] at e4; exact absurd hn e4
          rw [this]
          exact hxs v (List.mem_of_getLast? exs)
      · have key : ∀ i, ∃ (k : Nat) (ta tb : F) (a b : I → Val F), (∀ j s, j ≤ k → (t0 :: rest)[j]? = some s → ¬ q ≤ s) ∧ (t0 :: rest)[k]? = some ta ∧ (t0 :: rest)[k + 1]? = some tb ∧ q ≤ tb ∧
            xs[k]? = some a ∧ xs[k + 1]? = some b ∧ Both (fun y x => (((y -. x) *. (q - ta)) /. (tb - ta)) +. x) (b i) (a i) (r i) := by
          intro i
          obtain ⟨_, h, _⟩ := hq i
          generalize r i = ri at h ⊢
          cases h with
          | before e1 e2 => rw [List.map_cons] at e1; cases e1; rw [hle, decide_eq_true_iff] at e2; exact absurd e2 h0
          | after e1 _ e3 e4 => rw [htn, etn, Option.map_some] at e3; cases e3; rw [hle', decide_eq_true_iff] at e4; exact absurd e4 hn
          | @between _ ta tb _ _ k a b _ e1 e2 e3 e4 e5 e6 e7 e8 e9 e10 e11 =>
            rw [List.getElem?_map] at e6 e7 e9 e10
            obtain ⟨ta, f6, rfl⟩ := Option.map_eq_some_iff.1 e6
            obtain ⟨tb, f7, rfl⟩ := Option.map_eq_some_iff.1 e7
            obtain ⟨a, f9, rfl⟩ := Option.map_eq_some_iff.1 e9
            obtain ⟨b, f10, rfl⟩ := Option.map_eq_some_iff.1 e10
            refine ⟨k, ta, tb, a, b, fun j s hj hs => ?_, f6, f7, ?_, f9, f10, ?_⟩
            · have := e5 j (s + c i) hj (by rw [List.getElem?_map, hs]; rfl)
              rw [hle, decide_eq_false_iff_not] at this
              exact this
            · rw [hle, decide_eq_true_iff] at e8; exact e8
            · have g1 : (q + c i) -. (ta + c i) = q - ta := add_sub_add_right_eq_sub _ _ _
              have g2 : (tb + c i) -. (ta + c i) = tb - ta := add_sub_add_right_eq_sub _ _ _
              rw [g1, g2] at e11
              exact e11
        obtain ⟨k, ta, tb, a, b, k1, k2, k3, k4, k5, k6, _⟩ := key i0
        refine Lin.both (A := A) (B := A) (f := fun _ y x => (((y -. x) *. (q - ta)) /. (tb - ta)) +. x) (a := b) (b := a) (fun y hy x hx => ?_) (hxs b (List.mem_of_getElem? k6)) (hxs a (List.mem_of_getElem? k5)) fun i => ?_
        · have : (fun i => (((y i -. x i) *. (q - ta)) /. (tb - ta)) +. x i) = ((q - ta) / (tb - ta)) • (y - x) + x := funext fun i => by
            show (y i - x i) * (q - ta) / (tb - ta) + x i = (q - ta) / (tb - ta) * (y i - x i) + x i
            rw [mul_comm, mul_div_right_comm]
          rw [this]
          exact A.add_mem (A.smul_mem _ (A.sub_mem hy hx)) hx
        · obtain ⟨k', ta', tb', a', b', j1, j2, j3, j4, j5, j6, j7⟩ := key i
          have : k' = k := by
            rcases Nat.lt_trichotomy k' k with hlt | he | hgt
            · exact absurd j4 (k1 (k' + 1) tb' hlt j3)
            · exact he
            · exact absurd k4 (j1 (k + 1) tb hgt k3)
          subst this
          rw [k2] at j2; cases j2
          rw [k3] at j3; cases j3
          rw [k5] at j5; cases j5
          rw [k6] at j6; cases j6
          exact j7

/-- Blocks keep the relations. -/
theorem solved [Nonempty I] [IsStrictOrderedRing F] (hl : l.Linear c M) (hc : l.Complete) (hh : l.Held c M mem) (hon : ∀ x ∈ l.reads, On M val x) (hs : ∀ i, l.Solved (t + c i) (mem i) (val i)) :
    ∀ o ∈ l.outs, On M val o := by
  obtain ⟨i0⟩ := id ‹Nonempty I›
  have hst := hs
  unfold Leaf.reads at hon
  unfold Leaf.outs
  unfold Leaf.Linear at hl
  unfold Leaf.Held at hh
  unfold Leaf.Complete at hc
  unfold Leaf.Solved at hs
  have two : ∀ {x : SigId} {a : I → Val F}, On M val x → (∀ i, val i x = some (a i)) → Lin (M x) a := fun ⟨u, hu, hl⟩ h => by
    rwa [show _ = u from funext fun i => Option.some.inj ((h i).symm.trans (hu i))]
  cases hk : l.kind with
  | const v o =>
    simp only [hk] at hl hs
    intro s hso
    obtain rfl := List.mem_singleton.1 hso
    exact ⟨_, hs, hl.elim (fun h => .same h v) .zero⟩
  | source f o =>
    simp only [hk] at hl hs
    intro s hso
    obtain rfl := List.mem_singleton.1 hso
    choose v e1 e2 using hs
    exact ⟨v, e2, hl t v e1⟩
  | sources f os =>
    simp only [hk] at hl hs hc
    intro s hso
    obtain ⟨w, hw⟩ := given_same (hc (t + c i0)).1 (hc (t + c i0)).2 (fun i => by rw [hl.1 t i0 i]; exact (hs i).2) hso
    exact ⟨_, hw, .same (hl.2 s hso) w⟩
  | gain k x o =>
    simp only [hk] at hl hs hon
    intro s hso
    obtain rfl := List.mem_singleton.1 hso
    choose a r e1 e2 e3 using hs
    exact ⟨r, e3, ((two (hon x (by simp [Kind.reads])) e1).scaled e2).mono hl⟩
  | add v xs o =>
    simp only [hk] at hl hs hon
    intro s hso
    obtain rfl := List.mem_singleton.1 hso
    choose r e1 e2 using hs
    refine ⟨r, e2, folded (a := fun _ => v) (fun s hs x hx y hy => ?_) (fun s hs => hon s (by simpa [Kind.reads] using hs)) (hl.1.elim (fun h => .same h v) .zero) e1⟩
    exact (M _).add_mem hx (hl.2 s hs hy)
  | multiply v xs o =>
    simp only [hk] at hl hs hon
    intro s hso
    obtain rfl := List.mem_singleton.1 hso
    choose r e1 e2 using hs
    refine ⟨r, e2, ?_⟩
    have hon' : ∀ x ∈ xs, On M val x := fun s hs => hon s (by simpa [Kind.reads] using hs)
    rcases hl with ⟨h1, h2⟩ | ⟨pre, x, post, rfl, h1, h2⟩
    · refine (folded (A := diag F I) (a := fun _ => v) (fun s hs x hx y hy => ?_) hon' (.same le_rfl v) e1).mono h2
      exact mul_diag hx (h1 s hs hy)
    · have hsp : ∀ i, ∃ a w b, Folded (val i) (· *. ·) v pre a ∧ val i x = some w ∧ Both (· *. ·) a w b ∧ Folded (val i) (· *. ·) b post (r i) := fun i => by
        obtain ⟨a, h1, h2⟩ := Folded.split (e1 i)
        generalize r i = ri at h2 ⊢
        cases h2 with
        | cons g1 g2 g3 => exact ⟨_, _, _, h1, g1, g2, g3⟩
      choose a w b p1 p2 p3 p4 using hsp
      have q1 : Lin (diag F I) a := folded (a := fun _ => v) (fun s hs x hx y hy => mul_diag hx (h1 s (List.mem_append.2 (.inl hs)) hy)) (fun s hs => hon' s (by simp [hs])) (.same le_rfl v) p1
      have q2 : Lin (M x) b := Lin.both (f := fun _ => (· *. ·)) (fun y hy z hz => by
        have := mul_diag hz hy
        rwa [show (fun i => y i *. z i) = fun i => z i *. y i from funext fun i => mul_comm _ _]) q1 (two (hon' x (by simp)) p2) p3
      exact (folded (fun s hs x hx y hy => mul_diag hx (h1 s (List.mem_append.2 (.inr hs)) hy)) (fun s hs => hon' s (by simp [hs])) q2 p4).mono h2
  | subtract x y o =>
    simp only [hk] at hl hs hon
    intro s hso
    obtain rfl := List.mem_singleton.1 hso
    choose a b r e1 e2 e3 e4 using hs
    refine ⟨r, e4, Lin.both (fun p hp q hq => ?_) (two (hon x (by simp [Kind.reads])) e1) (two (hon y (by simp [Kind.reads])) e2) e3⟩
    exact (M _).sub_mem (hl.1 hp) (hl.2 hq)
  | divide x y o =>
    simp only [hk] at hl hs hon
    intro s hso
    obtain rfl := List.mem_singleton.1 hso
    choose a b r e1 e2 e3 e4 using hs
    refine ⟨r, e4, Lin.both (fun p hp q hq => ?_) (two (hon x (by simp [Kind.reads])) e1) (two (hon y (by simp [Kind.reads])) e2) e3⟩
    exact div_diag (hl.1 hp) (hl.2 hq)
  | pipe x o =>
    simp only [hk] at hl hs hon
    intro s hso
    obtain rfl := List.mem_singleton.1 hso
    choose a e1 e2 using hs
    exact ⟨a, e2, (two (hon x (by simp [Kind.reads])) e1).mono hl⟩
  | memory x o =>
    simp only [hk] at hl hs hh
    intro s hso
    obtain rfl := List.mem_singleton.1 hso
    exact ⟨_, hs, hh⟩
  | delay life x d i o =>
    simp only [hk] at hl hs hh hon
    intro s hso
    obtain rfl := List.mem_singleton.1 hso
    obtain ⟨ts, xs, g1, g2, g3⟩ := hh
    have hi := hon i (by simp [Kind.reads])
    have hd := hon d (by simp [Kind.reads])
    by_cases hts : ts = []
    · have : ∀ i, (mem i).ts = [] := fun i => by rw [g1, hts]; rfl
      simp only [this, if_true] at hs
      choose v e1 e2 using hs
      exact ⟨v, e2, (two hi e1).mono hl.2.1⟩
    · have : ∀ i, ¬ (mem i).ts = [] := fun i => by rw [g1, List.map_eq_nil_iff]; exact hts
      simp only [this, if_false] at hs
      choose dv r e1 e2 init e3 e4 using hs
      have hdv : ∀ i, dv i = dv i0 := fun i => by
        have := Lin.eq (two (a := fun i => .scalar (dv i)) hd e1) hl.2.2 i i0
        simpa using this
      obtain ⟨u, hu, hul⟩ := hi
      refine ⟨r, e2, recalled (c := c) (ts := ts) (xs := xs) (q := t - dv i0) (init := u) g3 (fun i => ⟨init i, ?_, fun h => ?_⟩) fun _ => hul.mono hl.2.1⟩
      · have := e3 i
        rw [g1, g2, hdv, show (t + c i) -. dv i0 = t - dv i0 + c i from add_sub_right_comm _ _ _] at this
        exact this
      · have := e4 i (by rw [g1, hdv, show (t + c i) -. dv i0 = t - dv i0 + c i from add_sub_right_comm _ _ _]; exact h)
        rw [hu] at this
        exact (Option.some.inj this).symm
  | derivative x o =>
    simp only [hk] at hl hs hh hon
    intro s hso
    obtain rfl := List.mem_singleton.1 hso
    rcases hh with ⟨h1, h2 | ⟨h2, t0, v0, h3, h4, h5⟩⟩
    · simp only [h2, if_true] at hs
      exact ⟨_, hs, h1⟩
    · simp only [h2, h3, h4, Bool.false_eq_true, if_false, Option.some.injEq, exists_eq_left'] at hs
      have he : ∀ i, ((t0 + c i) ==. (t + c i)) = decide (t0 = t) := fun i => by
        show decide (t0 + c i = t + c i) = _
        simp only [add_left_inj]
      simp only [he, decide_eq_true_eq] at hs
      by_cases htt : t0 = t
      · simp only [htt, if_true] at hs
        exact ⟨_, hs, h1⟩
      · simp only [htt, if_false] at hs
        choose v w r e1 e2 e3 e4 using hs
        have : w = v0 := funext fun i => (e2 i).symm
        subst this
        refine ⟨r, e4, Lin.both (fun p hp q hq => ?_) (two (hon x (by simp [Kind.reads])) e1) h5 e3⟩
        have : (fun i => (p i -. q i) /. ((t + c i) -. (t0 + c i))) = (t - t0)⁻¹ • (p - q) := funext fun i => by
          show (p i - q i) / (t + c i - (t0 + c i)) = (t - t0)⁻¹ * (p i - q i)
          rw [add_sub_add_right_eq_sub, div_eq_mul_inv, mul_comm]
        rw [this]
        exact hl ((M x).smul_mem _ ((M x).sub_mem hp hq))
  | integrator x o => intro s hso; exact (List.not_mem_nil hso).elim
  | trigInt x tr o => simp only [hk] at hl
  | siso f x o =>
    simp only [hk] at hl hs hon
    intro s hso
    obtain rfl := List.mem_singleton.1 hso
    choose v r e1 e2 e3 using hs
    have hv := Lin.eq (two (hon x (by simp [Kind.reads])) e1) hl.2.1
    have hr : ∀ i, r i = r i0 := fun i => by
      have := e2 i
      rw [hl.1 t i i0, hv i i0, e2 i0] at this
      exact (Except.ok.inj this).symm
    exact ⟨r, e3, (show r = fun _ => r i0 from funext hr) ▸ .same hl.2.2 _⟩
  | so f xs o =>
    simp only [hk] at hl hs hon
    intro s hso
    obtain rfl := List.mem_singleton.1 hso
    choose v r e1 e2 e3 using hs
    have hv : ∀ i, v i = v i0 := fun i => shows_same (fun s hs => hon s (by simpa [Kind.reads] using hs)) hl.2.1 (e1 i) (e1 i0)
    have hr : ∀ i, r i = r i0 := fun i => by
      have := e2 i
      rw [hl.1 t i i0, hv i, e2 i0] at this
      exact (Except.ok.inj this).symm
    exact ⟨r, e3, (show r = fun _ => r i0 from funext hr) ▸ .same hl.2.2 _⟩
  | func f xs os =>
    simp only [hk] at hl hs hon hc
    intro s hso
    choose v e1 e2 e3 using hs
    have hv : ∀ i, v i = v i0 := fun i => shows_same (fun s hs => hon s (by simpa [Kind.reads] using hs)) hl.2.1 (e1 i) (e1 i0)
    have hcc := hc (t + c i0) (v i0) (e2 i0)
    obtain ⟨w, hw⟩ := given_same hcc.1 hcc.2 (fun i => by have := e3 i; rw [hl.1 t i i0, hv i] at this; exact this) hso
    exact ⟨_, hw, .same (hl.2.2 s hso) w⟩
  | builder => intro s hso; exact (List.not_mem_nil hso).elim
  | custom cu => simp only [hk] at hl

/-- What blocks store keeps the relations. -/
theorem stored [Nonempty I] [IsStrictOrderedRing F] (hl : l.Linear c M) (hh : l.Held c M mem) (hon : ∀ x ∈ l.postReads, On M val x) (hst : ∀ s, l.state = some s → On M val s)
    (hs : ∀ i, l.Stored (t + c i) (val i) (mem i) (mem' i)) : l.Held c M mem' := by
  obtain ⟨i0⟩ := id ‹Nonempty I›
  unfold Leaf.postReads at hon
  unfold Leaf.state at hst
  unfold Leaf.Linear at hl
  unfold Leaf.Held at hh ⊢
  unfold Leaf.Stored at hs
  have two : ∀ {x : SigId} {a : I → Val F}, On M val x → (∀ i, val i x = some (a i)) → Lin (M x) a := fun ⟨u, hu, hl⟩ h => by
    rwa [show _ = u from funext fun i => Option.some.inj ((h i).symm.trans (hu i))]
  cases hk : l.kind with
  | memory x o =>
    simp only [hk] at hl hs hh hon ⊢
    choose v e1 e2 using hs
    simp only [e2]
    exact (two (hon x (by simp [Kind.postReads])) e1).mono hl
  | integrator x o =>
    simp only [hk] at hl hs hh hst ⊢
    choose v e1 e2 using hs
    simp only [e2]
    exact two (hst o (by simp)) e1
  | derivative x o =>
    simp only [hk] at hl hs hh hon ⊢
    choose v e1 e2 using hs
    simp only [e2]
    have := two (hon x (by simp [Kind.postReads])) e1
    exact ⟨this.mono hl, .inr ⟨fun _ => trivial, t, v, fun _ => rfl, fun _ => rfl, this⟩⟩
  | delay life x d i o =>
    simp only [hk] at hl hs hh hon ⊢
    obtain ⟨ts, xs, g1, g2, g3⟩ := hh
    choose k v e1 e2 e3 e4 e5 using hs
    have hlin := (two (hon x (by simp [Kind.postReads])) e1).mono hl.1
    have hle : ∀ (s : F) i, (((t + c i) -. life) <=. (s + c i)) = decide (t - life ≤ s) := fun s i => by
      show decide (t + c i - life ≤ s + c i) = _
      rw [add_sub_right_comm]
      simp only [add_le_add_iff_right]
    have h1 : ∀ i j s, j < k i → ts[j]? = some s → ¬ t - life ≤ s := fun i j s hj hjs => by
      have := e2 i j (s + c i) hj (by rw [g1, List.getElem?_map, hjs]; rfl)
      rwa [hle, decide_eq_false_iff_not] at this
    have h2 : ∀ i s, ts[k i]? = some s → t - life ≤ s := fun i s hjs => by
      have := e3 i (s + c i) (by rw [g1, List.getElem?_map, hjs]; rfl)
      rwa [hle, decide_eq_true_iff] at this
    have h3 : ∀ i, k i ≤ ts.length := fun i => by have := e4 i; rwa [g1, List.length_map] at this
    have hlt : ∀ i j, ¬ k i < k j := fun i j hij => by
      have hb : k i < ts.length := Nat.lt_of_lt_of_le hij (h3 j)
      exact h1 j _ _ hij (List.getElem?_eq_getElem hb) (h2 i _ (List.getElem?_eq_getElem hb))
    have hkk : ∀ i, k i = k i0 := fun i => Nat.le_antisymm (Nat.not_lt.1 (hlt i0 i)) (Nat.not_lt.1 (hlt i i0))
    refine ⟨ts.drop (k i0) ++ [t], xs.drop (k i0) ++ [v], fun i => ?_, fun i => ?_, fun u hu => ?_⟩
    · rw [e5, hkk, g1, List.map_append, List.map_drop]; rfl
    · rw [e5, hkk, g2, List.map_append, List.map_drop]; rfl
    · rcases List.mem_append.1 hu with hu | hu
      · exact g3 u (List.mem_of_mem_drop hu)
      · rw [List.mem_singleton.1 hu]; exact hlin
  | _ => simp only [hk] at hl ⊢

/-! ### The diagram -/

/-- The signal is an input at all times, a state, or an output. -/
def Known (cfg : Config F) (V : Vars) (s : SigId) : Prop := (∀ t, s ∈ (cfg.inputVals t).map Prod.fst) ∨ s ∈ V.scalars ++ V.arrays ∨ ∃ l ∈ cfg.model.leaves, s ∈ l.outs

/-- Simulations of one diagram. -/
structure Bond (c : I → F) (M : SigId → Submodule F (I → F)) (cfg : I → Config F) (V : I → Vars) : Prop where
  leaves : ∀ i j, ∀ l ∈ (cfg i).model.leaves, l ∈ (cfg j).model.leaves
  linear : ∀ i, ∀ l ∈ (cfg i).model.leaves, l.Linear c M
  explicit : ∀ i, Explicit (cfg i) (V i)
  complete : ∀ i, ∀ l ∈ (cfg i).model.leaves, l.Complete
  post : ∀ i, ∀ l ∈ (cfg i).model.leaves, ∀ s ∈ l.postReads, Known (cfg i) (V i) s
  held : ∀ i, ∀ l ∈ (cfg i).model.leaves, ∀ s, l.state = some s → s ∈ (V i).scalars ++ (V i).arrays
  fed : ∀ i s, (∀ t, s ∈ ((cfg i).inputVals t).map Prod.fst) → Fed c M cfg s
  scalars : ∀ i j, ∀ s ∈ (V i).scalars, s ∈ (V j).scalars
  arrays : ∀ i j, ∀ s ∈ (V i).arrays, s ∈ (V j).arrays
  size : ∀ i j, ∀ s ∈ (V i).arrays, (V i).size s = (V j).size s
  deriv : ∀ i j, ∀ s ∈ (V i).scalars ++ (V i).arrays, (cfg i).deriv s = (cfg j).deriv s
  slope : ∀ i, ∀ s ∈ (V i).scalars ++ (V i).arrays, ∀ d, (cfg i).deriv s = some d → M d ≤ M s
  sizes : ∀ i, ∀ s ∈ (V i).arrays, ((cfg i).deriv s).elim 0 (V i).size = (V i).size s

variable {cfg : I → Config F} {V : I → Vars} {g : I → SigId × Nat → F} {mm mm' : I → BlkId → Mem F}

/-- The components of the states are related. -/
def Tied (M : SigId → Submodule F (I → F)) (V : I → Vars) (g : I → SigId × Nat → F) : Prop := ∀ i, ∀ q, q.1 ∈ (V i).scalars ++ (V i).arrays → (fun j => g j q) ∈ M q.1

theorem Bond.state (h : Bond c M cfg V) (i j : I) {s : SigId} (hs : s ∈ (V i).scalars ++ (V i).arrays) : s ∈ (V j).scalars ++ (V j).arrays := by
  rcases List.mem_append.1 hs with k | k
  · exact List.mem_append.2 (.inl (h.scalars i j s k))
  · exact List.mem_append.2 (.inr (h.arrays i j s k))

theorem comp_mem {w : I → SigId → Option (Val F)} {s : SigId} {v : I → Val F} (hw : ∀ i, w i s = some (v i)) (hv : Lin A v) (k : Nat) : (fun i => comp (w i) (s, k)) ∈ A := by
  have e : (fun i => comp (w i) (s, k)) = fun i => match v i with
    | .scalar x => x
    | .array xs => xs.getD k (Arith.lit 0)
    | _ => Arith.lit 0 := funext fun i => by simp only [comp, hw]; cases v i <;> rfl
  rw [e]
  rcases hv with ⟨x, hx, rfl⟩ | ⟨n, x, hx, rfl⟩ | ⟨hd, u, rfl⟩
  · exact hx
  · simp only
    by_cases hk : k < n
    · have : (fun i => (List.ofFn fun j => x j i).getD k (Arith.lit 0)) = x ⟨k, hk⟩ := funext fun i => by
        rw [List.getD_eq_getElem?_getD, List.getElem?_eq_getElem (by simpa using hk), Option.getD_some, List.getElem_ofFn]
      rw [this]; exact hx _
    · have : (fun i => (List.ofFn fun j => x j i).getD k (Arith.lit 0)) = 0 := funext fun i => by
        rw [List.getD_eq_getElem?_getD, List.getElem?_eq_none (by simpa using hk), Option.getD_none]
        exact Rat.cast_zero
      rw [this]; exact A.zero_mem
  · exact hd fun _ _ => rfl

theorem Bond.tied [Nonempty I] (h : Bond c M cfg V) (hg : Tied M V g) (hp : ∀ i, Packed (val i) (V i).size (V i).scalars (V i).arrays ((Within.slots (V i)).map (g i))) :
    ∀ i, ∀ s ∈ (V i).scalars ++ (V i).arrays, On M val s := by
  intro i s hs
  have hp' := fun i => (packed_iff (fun _ _ => rfl)).1 (hp i)
  have hcomp : ∀ j, ∀ q ∈ Within.slots (V j), g j q = comp (val j) q := fun j => List.map_inj_left.1 (hp' j).2.2
  rcases List.mem_append.1 hs with k | k
  · have e : ∀ j, val j s = some (.scalar (g j (s, 0))) := fun j => by
      obtain ⟨v, e⟩ := (hp' j).1 s (h.scalars i j s k)
      rw [hcomp j (s, 0) (List.mem_append.2 (.inl (List.mem_map.2 ⟨s, h.scalars i j s k, rfl⟩)))]
      simp only [comp, e]
    exact ⟨_, e, .inl ⟨_, hg i (s, 0) hs, rfl⟩⟩
  · have e : ∀ j, val j s = some (.array (List.ofFn fun a : Fin ((V i).size s) => g j (s, a))) := fun j => by
      have hj := h.arrays i j s k
      obtain ⟨v, e, hlen⟩ := (hp' j).2.1 s hj
      rw [e]
      congr 2
      refine List.ext_getElem (by rw [hlen, List.length_ofFn, h.size i j s k]) fun a h1 h2 => ?_
      rw [List.getElem_ofFn, hcomp j (s, a) (List.mem_append.2 (.inr (List.mem_flatMap.2 ⟨s, hj, List.mem_map.2 ⟨a, List.mem_range.2 (hlen ▸ h1), rfl⟩⟩)))]
      simp only [comp, e]
      rw [List.getD_eq_getElem?_getD, List.getElem?_eq_getElem h1, Option.getD_some]
    exact ⟨_, e, .inr (.inl ⟨_, _, fun a => hg i (s, a) hs, rfl⟩)⟩

/-- The values of all signals are related. -/
theorem Bond.values [Nonempty I] [IsStrictOrderedRing F] (h : Bond c M cfg V) (hg : Tied M V g) (hm : ∀ i, ∀ l ∈ (cfg i).model.leaves, l.Held c M fun j => mm j l.id)
    (hs : ∀ i, Solution (cfg i) (V i) (mm i) (t + c i) ((Within.slots (V i)).map (g i)) (val i)) : ∀ i s, Known (cfg i) (V i) s → On M val s := by
  have hst := h.tied hg fun i => (hs i).state
  have hin : ∀ i s, (∀ t, s ∈ ((cfg i).inputVals t).map Prod.fst) → On M val s := fun i s hi => by
    obtain ⟨v, hv, hl⟩ := h.fed i s hi t
    exact ⟨v, fun j => (hs j).input _ (hv j), hl⟩
  have hsol : ∀ i, ∀ l ∈ (cfg i).model.leaves, ∀ j, l.Solved (t + c j) (mm j l.id) (val j) := fun i l hl j => ((hs j).unique (h.explicit j) (h.complete j) (hs j)).1 l (h.leaves i j l hl)
  intro i
  obtain ⟨rank, hrk⟩ := (h.explicit i).ranked
  have key : ∀ n, ∀ l ∈ (cfg i).model.leaves, rank l.id < n → ∀ o ∈ l.outs, On M val o := by
    intro n
    induction n with
    | zero => intro l _ hr; exact absurd hr (Nat.not_lt_zero _)
    | succ n ih =>
      intro l hl hr
      refine solved (h.linear i l hl) (h.complete i l hl) (hm i l hl) (fun x hx => ?_) (hsol i l hl)
      obtain ⟨f, g1, g2⟩ := (h.explicit i).reads l hl x hx
      rcases hrk l hl x f g1 g2 with k | k | ⟨l', hl', k, k'⟩
      · exact hin i x k
      · exact hst i x k
      · exact ih l' hl' (Nat.lt_of_lt_of_le k' (Nat.le_of_lt_succ hr)) x k
  rintro s (k | k | ⟨l, hl, k⟩)
  · exact hin i s k
  · exact hst i s k
  · exact key _ l hl (Nat.lt_succ_self _) s k

theorem Bond.rhs [Nonempty I] [IsStrictOrderedRing F] (h : Bond c M cfg V) (hg : Tied M V g) (hm : ∀ i, ∀ l ∈ (cfg i).model.leaves, l.Held c M fun j => mm j l.id) {d : I → List F}
    (hr : ∀ i, Rhs (cfg i) (V i) (mm i) (t + c i) ((Within.slots (V i)).map (g i)) (d i)) : ∃ f, (∀ i, d i = (Within.slots (V i)).map (f i)) ∧ Tied M V f := by
  choose val h1 h2 using hr
  have hv := h.values hg hm h1
  refine ⟨fun i => comp fun s => ((cfg i).deriv s).bind (val i), fun i => ((packed_iff (h.sizes i)).1 (h2 i)).2.2, fun i q hq => ?_⟩
  have hpk := (packed_iff (h.sizes i)).1 (h2 i)
  obtain ⟨x, hx⟩ : ∃ x, (cfg i).deriv q.1 = some x := by
    cases e : (cfg i).deriv q.1 with
    | some x => exact ⟨x, rfl⟩
    | none =>
      rcases List.mem_append.1 hq with k | k
      · obtain ⟨v, hv⟩ := hpk.1 q.1 k
        rw [e] at hv; cases hv
      · obtain ⟨v, hv, _⟩ := hpk.2.1 q.1 k
        rw [e] at hv; cases hv
  obtain ⟨v, hv, hl⟩ := hv i x ((h.explicit i).derivs q.1 hq x hx)
  refine comp_mem (s := q.1) (k := q.2) (v := v) (fun j => ?_) (hl.mono (h.slope i q.1 hq x hx))
  rw [← h.deriv i j q.1 hq, hx]
  exact hv j

theorem Tied.axpy (hg : Tied M V g) {f : I → SigId × Nat → F} (hf : Tied M V f) (k : F) : Tied M V fun i q => g i q + k * f i q :=
  fun i q hq => (M q.1).add_mem (hg i q hq) ((M q.1).smul_mem k (hf i q hq))

theorem Tied.smul (hg : Tied M V g) (k : F) : Tied M V fun i q => k * g i q := fun i q hq => (M q.1).smul_mem k (hg i q hq)

theorem Bond.step [Nonempty I] [IsStrictOrderedRing F] (h : Bond c M cfg V) {st : Stepper F} (hst : st ∈ [euler, rk4]) (hg : Tied M V g) (hm : ∀ i, ∀ l ∈ (cfg i).model.leaves, l.Held c M fun j => mm j l.id)
    {u : F} {y : I → List F} {q : I → F} (hs : ∀ i, (st (t + c i) ((Within.slots (V i)).map (g i)) (u + c i)).By (Rhs (cfg i) (V i) (mm i)) (y i, q i)) :
    ∃ f, (∀ i, y i = (Within.slots (V i)).map (f i)) ∧ Tied M V f := by
  have eh : ∀ i, (u + c i) -. (t + c i) = u - t := fun i => add_sub_add_right_eq_sub _ _ _
  simp only [List.mem_cons, List.not_mem_nil, or_false] at hst
  rcases hst with rfl | rfl
  · choose d h1 e using hs
    obtain ⟨f, hf, k1⟩ := h.rhs hg hm h1
    refine ⟨_, fun i => ?_, hg.axpy k1 (u - t)⟩
    have e : (y i, q i) = (vadd ((Within.slots (V i)).map (g i)) (vsmul ((u + c i) -. (t + c i)) (d i)), _) := e i
    rw [hf, eh, vsmul_slots, vadd_slots] at e
    exact congrArg Prod.fst e
  · choose d1 h1 d2 h2 d3 h3 d4 h4 e using hs
    obtain ⟨f1, hf1, k1⟩ := h.rhs hg hm h1
    have a2 := hg.axpy k1 ((u - t) / Arith.lit 2)
    obtain ⟨f2, hf2, k2⟩ := h.rhs (t := t + (u - t) / Arith.lit 2) (d := d2) a2 hm fun i => by
      have := h2 i
      rw [hf1, eh, vsmul_slots, vadd_slots, show (t + c i) +. ((u - t) /. Arith.lit 2) = t + (u - t) / Arith.lit 2 + c i from add_right_comm _ _ _] at this
      exact this
    have a3 := hg.axpy k2 ((u - t) / Arith.lit 2)
    obtain ⟨f3, hf3, k3⟩ := h.rhs (t := t + (u - t) / Arith.lit 2) (d := d3) a3 hm fun i => by
      have := h3 i
      rw [hf2, eh, vsmul_slots, vadd_slots, show (t + c i) +. ((u - t) /. Arith.lit 2) = t + (u - t) / Arith.lit 2 + c i from add_right_comm _ _ _] at this
      exact this
    have a4 := hg.axpy k3 (u - t)
    obtain ⟨f4, hf4, k4⟩ := h.rhs (t := t + (u - t)) (d := d4) a4 hm fun i => by
      have := h4 i
      rw [hf3, eh, vsmul_slots, vadd_slots, show (t + c i) +. (u - t) = t + (u - t) + c i from add_right_comm _ _ _] at this
      exact this
    refine ⟨_, fun i => ?_, (((hg.axpy (k1.smul ((u - t) / Arith.lit 2)) (Arith.lit 1 / Arith.lit 3)).axpy (k2.smul ((u - t) / Arith.lit 2)) (Arith.lit 2 / Arith.lit 3)).axpy
      (k3.smul (u - t)) (Arith.lit 1 / Arith.lit 3)).axpy (k4.smul (u - t)) (Arith.lit 1 / Arith.lit 6)⟩
    have e := e i
    simp only [hf1, hf2, hf3, hf4, eh, vsmul_slots, vadd_slots] at e
    have e : (y i, q i) = _ := e
    exact congrArg Prod.fst e

/-- Snapshots of the simulations that are related. -/
structure Bound (c : I → F) (M : SigId → Submodule F (I → F)) (cfg : I → Config F) (V : I → Vars) (t : F) (a : I → Snapshot F) : Prop where
  time : ∀ i, (a i).time = t + c i
  state : ∃ g, (∀ i, (a i).state = (Within.slots (V i)).map (g i)) ∧ Tied M V g
  mem : ∀ i, ∀ l ∈ (cfg i).model.leaves, l.Held c M fun j => (a j).mem l.id
  vals : ∀ i s, Known (cfg i) (V i) s → On M (fun j => (a j).vals) s

theorem Bond.committed [Nonempty I] [IsStrictOrderedRing F] (h : Bond c M cfg V) {b : I → Snapshot F} (ht : ∀ i, (b i).time = t + c i)
    (hm : ∀ i, ∀ l ∈ (cfg i).model.leaves, l.Held c M fun j => mm j l.id) (hg : Tied M V g) (he : ∀ i, (b i).state = (Within.slots (V i)).map (g i))
    (hc : ∀ i, Committed (cfg i) (V i) (mm i) (t + c i) (b i).state (b i).vals (b i).mem) : Bound c M cfg V t b := by
  have hv := h.values (val := fun j => (b j).vals) hg hm fun i => by rw [← he i]; exact (hc i).solution
  refine ⟨ht, ⟨g, he, hg⟩, fun i l hl => ?_, hv⟩
  exact stored (h.linear i l hl) (hm i l hl) (fun s hs => hv i s (h.post i l hl s hs)) (fun s hs => hv i s (.inr (.inl (h.held i l hl s hs)))) fun j => (hc j).stored l (h.leaves i j l hl)

theorem passes_cons {cfg : Config F} {V : Vars} (he : ∀ st, cfg.stepper = some st → st ∈ [euler, rk4]) {a z : Snapshot F} {u : F} {ts : List F} (hp : Passes cfg V a (u :: ts) z) :
    ∃ b, b.time = u ∧ Passes cfg V b ts z ∧ Committed cfg V a.mem u b.state b.vals b.mem ∧
      (V.scalars ++ V.arrays ≠ [] → ∃ st q, cfg.stepper = some st ∧ (st a.time a.state u).By (Rhs cfg V a.mem) (b.state, q)) := by
  generalize hl : u :: ts = l at hp
  cases hp with
  | nil => cases hl
  | @steps _ b _ ts' st steps k1 k2 k3 k4 k5 k6 =>
    obtain ⟨rfl, rfl⟩ := List.cons_eq_cons.1 hl
    rw [k4 (he _ k2)] at k5
    cases k5 with
    | step _ _ _ _ q => cases q
    | last r1 r2 r3 r4 => exact ⟨b, rfl, k6, r4, fun _ => ⟨st, _, k2, r3⟩⟩
  | @sample _ b _ ts' k1 k2 k3 =>
    obtain ⟨rfl, rfl⟩ := List.cons_eq_cons.1 hl
    exact ⟨b, rfl, k3, k2, fun hn => (hn k1).elim⟩

theorem Bond.passes [Nonempty I] [IsStrictOrderedRing F] (h : Bond c M cfg V) (he : ∀ i st, (cfg i).stepper = some st → st ∈ [euler, rk4]) (hst : ∀ i j, (V i).scalars ++ (V i).arrays ≠ [] → (cfg i).stepper = (cfg j).stepper)
    {ts : List F} : ∀ {t : F} {a b : I → Snapshot F}, Bound c M cfg V t a → (∀ i, Passes (cfg i) (V i) (a i) (ts.map (· + c i)) (b i)) → ∃ t', Bound c M cfg V t' b := by
  obtain ⟨i0⟩ := id ‹Nonempty I›
  induction ts with
  | nil =>
    intro t a b ha hp
    have : b = a := funext fun i => by
      have := hp i
      rw [List.map_nil] at this
      generalize hb : b i = bi, hl : ([] : List F) = l at this
      cases this with
      | nil => rfl
      | steps => cases hl
      | sample => cases hl
    exact ⟨t, this ▸ ha⟩
  | cons u ts ih =>
    intro t a z ha hp
    have hp' := fun i => passes_cons (he i) (hp i)
    choose b b1 b2 b3 b4 using hp'
    obtain ⟨g, hg1, hg2⟩ := ha.state
    refine ih (t := u) ?_ b2
    by_cases hV : (V i0).scalars ++ (V i0).arrays = []
    · have hV' : ∀ i, (V i).scalars ++ (V i).arrays = [] := fun i => List.eq_nil_iff_forall_not_mem.2 fun s hs => by have := h.state i i0 hs; rw [hV] at this; cases this
      refine h.committed (g := g) b1 ha.mem hg2 (fun i => ?_) b3
      rw [((packed_nil (hV' i)).1 (b3 i).solution.state)]
      unfold Within.slots
      rw [(List.append_eq_nil_iff.1 (hV' i)).1, (List.append_eq_nil_iff.1 (hV' i)).2]
      rfl
    · have hV' : ∀ i, (V i).scalars ++ (V i).arrays ≠ [] := fun i e => hV (List.eq_nil_iff_forall_not_mem.2 fun s hs => by have := h.state i0 i hs; rw [e] at this; cases this)
      have b4' := fun i => b4 i (hV' i)
      choose st q c1 c2 using b4'
      have hs : ∀ i, st i = st i0 := fun i => by
        have := hst i i0 (hV' i)
        rw [c1, c1] at this
        exact Option.some.inj this
      obtain ⟨f, hf1, hf2⟩ := h.step (u := u) (y := fun i => (b i).state) (q := q) (he i0 _ (c1 i0)) hg2 ha.mem fun i => by
        have := c2 i
        rw [hs, ha.time, hg1] at this
        exact this
      exact h.committed b1 ha.mem hf2 hf1 b3

end
end Pooya.Superpose
