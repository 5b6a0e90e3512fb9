import Verif.Spec.Ownership
import Mathlib.Data.List.Basic
import Mathlib.Algebra.BigOperators.Group.List.Basic
import Mathlib.Tactic.Ring

/-! Reference counts of signals: lemmas. -/

namespace Pooya

set_option linter.unusedSectionVars false

theorem count_same {g g' : Nat → List SigId} {n : Nat} (x : SigId) (h : ∀ j < n, g' j = g j) :
    ((List.range n).flatMap g').count x = ((List.range n).flatMap g).count x := by
  induction n with
  | zero => rfl
  | succ n ih =>
    rw [List.range_succ, List.flatMap_append, List.flatMap_append, List.count_append, List.count_append, ih fun j hj => h j (by omega)]
    simp [h n (by omega)]

theorem count_upd {g g' : Nat → List SigId} {n i : Nat} (x : SigId) (hi : i < n) (h : ∀ j, j ≠ i → g' j = g j) :
    ((List.range n).flatMap g').count x + (g i).count x = ((List.range n).flatMap g).count x + (g' i).count x := by
  induction n with
  | zero => omega
  | succ n ih =>
    rw [List.range_succ, List.flatMap_append, List.flatMap_append, List.count_append, List.count_append]
    by_cases e : i = n
    · subst e
      rw [count_same x fun j hj => h j (by omega)]
      simp; omega
    · have := ih (by omega)
      have h2 := h n (Ne.symm e)
      simp [h2] at this ⊢; omega

theorem count_mem {g : Nat → List SigId} {n i : Nat} {x : SigId} (hi : i < n) (hx : x ∈ g i) : 0 < ((List.range n).flatMap g).count x :=
  List.count_pos_iff.2 (List.mem_flatMap.2 ⟨i, List.mem_range.2 hi, hx⟩)

theorem total_upd {f : SigId → Nat} {n x v : Nat} (hx : x < n) : ((List.range n).map (upd f x v)).sum + f x = ((List.range n).map f).sum + v := by
  induction n with
  | zero => omega
  | succ n ih =>
    rw [List.range_succ, List.map_append, List.map_append, List.sum_append, List.sum_append]
    by_cases e : x = n
    · subst e
      have : (List.range x).map (upd f x v) = (List.range x).map f := by
        refine List.map_congr_left fun j hj => ?_
        have : j ≠ x := Nat.ne_of_lt (List.mem_range.1 hj)
        simp [upd, this]
      rw [this]; simp [upd]; omega
    · have h1 := ih (by omega)
      have h2 : n ≠ x := fun h => e h.symm
      have h3 : upd f x v n = f n := by simp [upd, h2]
      simp only [List.map_cons, List.map_nil, List.sum_cons, List.sum_nil, h3]; omega

/-- The counts are right, except that the pointers in `W` are to be destroyed or placed somewhere. -/
structure Own.Inv (s : Own) (W : List SigId) : Prop where
  cnt : ∀ x, s.rc x = s.refs x + W.count x
  live : ∀ x, s.live x = true ↔ 0 < s.rc x
  born : ∀ x, s.live x = true → x < s.next
  entries : ∀ y < s.next, ∀ x ∈ (s.obj y).entries, (s.obj y).ty = none ∧ x < y
  deriv : ∀ y < s.next, ∀ x, (s.obj y).deriv = some x → (s.obj y).ty ≠ none ∧ x < s.next ∧ (s.obj x).ty ≠ none
  typed : ∀ i < s.top, ∀ x, (s.ref i).typed = some x → ∃ c, (s.ref i).cls = some c ∧ c.takes (s.obj x).ty = true

variable {s : Own} {W : List SigId}

theorem Own.Inv.pending (hi : s.Inv W) {x : SigId} (hx : x ∈ W) : s.live x = true :=
  (hi.live x).2 (by rw [hi.cnt]; have := List.count_pos_iff.2 hx; omega)

theorem Own.Inv.ref (hi : s.Inv W) {i : Nat} (h : i < s.top) {x : SigId} (hx : x ∈ (s.ref i).targets) : s.live x = true := by
  refine (hi.live x).2 ?_
  rw [hi.cnt]
  have := count_mem (g := fun i => (s.ref i).targets) h hx
  unfold Own.refs
  omega

theorem Own.Inv.member (hi : s.Inv W) {y x : SigId} (hy : s.live y = true) (hx : x ∈ (s.obj y).members) : s.live x = true := by
  refine (hi.live x).2 ?_
  rw [hi.cnt]
  have := count_mem (g := fun y => if s.live y then (s.obj y).members else []) (hi.born y hy) (x := x) (by simp only [hy, if_true]; exact hx)
  unfold Own.refs
  omega

theorem Own.Inv.perm {W' : List SigId} (hi : s.Inv W) (h : ∀ x, W.count x = W'.count x) : s.Inv W' :=
  ⟨fun x => by rw [hi.cnt, h], hi.live, hi.born, hi.entries, hi.deriv, hi.typed⟩

/-- If the call returns, `Q` holds; if an exception leaves it, `E` holds; nothing else happens. -/
def OnEnd {α : Type} (x : OM α) (s : Own) (Q : α → Own → Prop) (E : Own → Prop) : Prop :=
  match x s with
  | .ok a s' => Q a s'
  | .error (.exc _) s' => E s'
  | .error _ _ => False

variable {α β : Type} {E : Own → Prop}

theorem om_bind (x : OM α) (f : α → OM β) (s : Own) : (x >>= f) s = match x s with | .ok a s' => f a s' | .error e s' => .error e s' := by
  show EStateM.bind x f s = _
  unfold EStateM.bind
  cases x s <;> rfl

theorem OnEnd.bind {x : OM α} {f : α → OM β} {Q : β → Own → Prop} (h : OnEnd x s (fun a s' => OnEnd (f a) s' Q E) E) : OnEnd (x >>= f) s Q E := by
  unfold OnEnd at h ⊢
  rw [om_bind]
  cases e : x s with
  | ok a s' => rw [e] at h; exact h
  | error er s' => rw [e] at h; cases er <;> exact h

theorem OnEnd.weaken {x : OM α} {Q Q' : α → Own → Prop} (h : OnEnd x s Q E) (hq : ∀ a s', Q a s' → Q' a s') : OnEnd x s Q' E := by
  unfold OnEnd at h ⊢
  revert h
  cases x s with
  | ok a s' => exact hq a s'
  | error er s' => cases er <;> exact fun h => h

theorem OnEnd.get {f : Own → OM β} {Q : β → Own → Prop} (h : OnEnd (f s) s Q E) : OnEnd (do let s ← get; f s) s Q E := OnEnd.bind h

theorem OnEnd.pure {a : α} {Q : α → Own → Prop} (h : Q a s) : OnEnd (Pure.pure a : OM α) s Q E := h

theorem OnEnd.throw {e : Exc} {Q : α → Own → Prop} (h : E s) : OnEnd (throw (.exc e) : OM α) s Q E := h

theorem OnEnd.follow {o : Option SigId} {Q : SigId → Own → Prop} {x : SigId} (ho : o = some x) (hl : s.live x = true) (h : Q x s) : OnEnd (follow o) s Q E := by
  subst ho
  unfold OnEnd Pooya.follow
  simp only [hl, if_true]
  exact h

theorem OnEnd.grab {o : Option SigId} {Q : Unit → Own → Prop} (hi : s.Inv W) (ho : ∀ x, o = some x → s.live x = true)
    (h : ∀ s', s'.obj = s.obj → s'.live = s.live → s'.next = s.next → s'.ref = s.ref → s'.top = s.top → s'.Inv (o.toList ++ W) → Q () s') : OnEnd (grab o) s Q E := by
  cases o with
  | none => exact h s rfl rfl rfl rfl rfl hi
  | some x =>
    have hl := ho x rfl
    unfold OnEnd Pooya.grab
    simp only [hl, if_true]
    refine h _ rfl rfl rfl rfl rfl ⟨fun y => ?_, fun y => ?_, hi.born, hi.entries, hi.deriv, hi.typed⟩
    · have := hi.cnt y
      show upd s.rc x (s.rc x + 1) y = s.refs y + _
      by_cases e : y = x
      · subst e; simp [upd]; omega
      · simp [upd, e, List.count_cons, Ne.symm e, this]
    · have := hi.live y
      show s.live y = true ↔ 0 < upd s.rc x (s.rc x + 1) y
      by_cases e : y = x
      · subst e; simp [upd, hl]
      · simp [upd, e, this]

theorem refs_ref {i : Nat} {r : Ref} (h : i < s.top) (x : SigId) :
    ({ s with ref := upd s.ref i r } : Own).refs x + (s.ref i).targets.count x = s.refs x + r.targets.count x := by
  unfold Own.refs
  have := count_upd (g := fun i => (s.ref i).targets) (g' := fun j => (upd s.ref i r j).targets) x h (fun j hj => by simp [upd, hj])
  simp only [upd, if_true] at this ⊢
  omega

theorem OnEnd.putRef {i : Nat} {r : Ref} {Q : Unit → Own → Prop} {W' : List SigId} (hi : s.Inv W) (h : i < s.top) (ht : ∀ x, r.typed = some x → ∃ c, r.cls = some c ∧ c.takes (s.obj x).ty = true)
    (hw : ∀ x, W.count x + (s.ref i).targets.count x = W'.count x + r.targets.count x)
    (hq : ({ s with ref := upd s.ref i r } : Own).Inv W' → Q () { s with ref := upd s.ref i r }) : OnEnd (putRef i r) s Q E := by
  refine hq ⟨fun x => ?_, hi.live, hi.born, hi.entries, hi.deriv, fun j hj x hx => ?_⟩
  · have h1 := hi.cnt x
    have h2 := refs_ref (r := r) h x
    have h3 := hw x
    show s.rc x = _
    omega
  · by_cases e : j = i
    · subst e; simp only [upd, if_true] at hx ⊢; exact ht x hx
    · simp only [upd, if_neg e] at hx ⊢; exact hi.typed j hj x hx

theorem OnEnd.newRef {r : Ref} {Q : Unit → Own → Prop} (hi : s.Inv (r.targets ++ W)) (ht : ∀ x, r.typed = some x → ∃ c, r.cls = some c ∧ c.takes (s.obj x).ty = true)
    (hq : ∀ s', s'.Inv W → Q () s') : OnEnd (newRef r) s Q E := by
  refine hq _ ⟨fun x => ?_, hi.live, hi.born, hi.entries, hi.deriv, fun j hj x hx => ?_⟩
  · have h1 := hi.cnt x
    show s.rc x = Own.refs { s with ref := upd s.ref s.top r, top := s.top + 1 } x + _
    have h2 : Own.refs { s with ref := upd s.ref s.top r, top := s.top + 1 } x = s.refs x + r.targets.count x := by
      unfold Own.refs
      simp only
      rw [List.range_succ, List.flatMap_append, List.count_append, count_same (g := fun i => (s.ref i).targets) x fun j hj => by simp [upd, Nat.ne_of_lt hj]]
      simp [upd]; omega
    rw [h2, h1, List.count_append]; omega
  · have hj : j < s.top + 1 := hj
    by_cases e : j = s.top
    · subst e; simp only [upd, if_true] at hx ⊢; exact ht x hx
    · simp only [upd, if_neg e] at hx ⊢; exact hi.typed j (by omega) x hx

theorem letGo_cons (n : Nat) (x : SigId) (l : List SigId) (s : Own) : letGo (n + 1) (x :: l) s =
    if s.live x = false ∨ s.rc x = 0 then .error (.ub .dangling) s
    else if s.rc x = 1 then letGo n ((s.obj x).members ++ l) { s with rc := upd s.rc x 0, live := upd s.live x false }
    else letGo n l { s with rc := upd s.rc x (s.rc x - 1) } := rfl

theorem letGo_inv (n : Nat) : ∀ {s : Own} {W : List SigId}, s.Inv W → s.total ≤ n →
    ∃ s', letGo n W s = .ok () s' ∧ s'.Inv [] ∧ s'.obj = s.obj ∧ s'.next = s.next ∧ s'.ref = s.ref ∧ s'.top = s.top := by
  have pos : ∀ {s : Own} {W : List SigId} {x}, s.Inv W → x ∈ W → s.rc x ≤ s.total := by
    intro s W x hi hx
    have := total_upd (f := s.rc) (v := 0) (hi.born x (hi.pending hx))
    unfold Own.total; omega
  induction n with
  | zero =>
    intro s W hi hn
    cases W with
    | nil => exact ⟨s, rfl, hi, rfl, rfl, rfl, rfl⟩
    | cons x l =>
      have h1 := pos hi (List.mem_cons_self (a := x) (l := l))
      have h2 := (hi.live x).1 (hi.pending (List.mem_cons_self (a := x) (l := l)))
      omega
  | succ n ih =>
    intro s W hi hn
    cases W with
    | nil => exact ⟨s, rfl, hi, rfl, rfl, rfl, rfl⟩
    | cons x l =>
      have hl := hi.pending (List.mem_cons_self (a := x) (l := l))
      have hp := (hi.live x).1 hl
      have hb := hi.born x hl
      rw [letGo_cons, if_neg (by simp [hl]; omega)]
      by_cases h1 : s.rc x = 1
      · rw [if_pos h1]
        have hi' : Own.Inv { s with rc := upd s.rc x 0, live := upd s.live x false } ((s.obj x).members ++ l) := by
          refine ⟨fun y => ?_, fun y => ?_, fun y hy => ?_, hi.entries, hi.deriv, hi.typed⟩
          · have h3 := hi.cnt y
            have h4 := hi.cnt x
            have h2 := count_upd (g := fun y => if s.live y then (s.obj y).members else []) (g' := fun y => if upd s.live x false y then (s.obj y).members else []) y hb
              (fun j hj => by simp [upd, hj])
            simp only [hl, if_true, upd, Bool.false_eq_true, if_false, List.count_nil] at h2
            show upd s.rc x 0 y = Own.refs _ y + _
            simp only [Own.refs, upd, List.count_append] at h3 h4 ⊢
            by_cases e : y = x
            · subst e; simp only [if_true, List.count_cons_self] at h3 ⊢; omega
            · simp only [if_neg e, List.count_cons_of_ne (Ne.symm e)] at h3 ⊢; omega
          · show upd s.live x false y = true ↔ 0 < upd s.rc x 0 y
            by_cases e : y = x
            · subst e; simp [upd]
            · simp only [upd, if_neg e]; exact hi.live y
          · by_cases e : y = x
            · subst e; exact hb
            · simp only [upd, if_neg e] at hy; exact hi.born y hy
        obtain ⟨s', k1, k2⟩ := ih hi' (by
          have := total_upd (f := s.rc) (v := 0) hb
          unfold Own.total at hn ⊢; simp only; omega)
        exact ⟨s', k1, k2⟩
      · rw [if_neg h1]
        have hi' : Own.Inv { s with rc := upd s.rc x (s.rc x - 1) } l := by
          refine ⟨fun y => ?_, fun y => ?_, hi.born, hi.entries, hi.deriv, hi.typed⟩
          · have h3 := hi.cnt y
            show upd s.rc x (s.rc x - 1) y = s.refs y + _
            by_cases e : y = x
            · subst e; simp only [upd, if_true, List.count_cons_self] at h3 ⊢; omega
            · simp only [upd, if_neg e, List.count_cons_of_ne (Ne.symm e)] at h3 ⊢; omega
          · show s.live y = true ↔ 0 < upd s.rc x (s.rc x - 1) y
            by_cases e : y = x
            · subst e; simp only [upd, if_true, hl, true_iff]; omega
            · simp only [upd, if_neg e]; exact hi.live y
        obtain ⟨s', k1, k2⟩ := ih hi' (by
          have := total_upd (f := s.rc) (v := s.rc x - 1) hb
          unfold Own.total at hn ⊢; simp only; omega)
        exact ⟨s', k1, k2⟩

theorem OnEnd.destroyPtrs {l : List SigId} {Q : Unit → Own → Prop} (hi : s.Inv l)
    (h : ∀ s', s'.Inv [] → s'.obj = s.obj → s'.next = s.next → s'.ref = s.ref → s'.top = s.top → Q () s') : OnEnd (destroyPtrs l) s Q E := by
  obtain ⟨s', k1, k2, k3, k4, k5, k6⟩ := letGo_inv s.total hi (Nat.le_refl _)
  unfold OnEnd Pooya.destroyPtrs
  rw [k1]
  exact h s' k2 k3 k4 k5 k6

theorem OnEnd.newSignal {cls : HandleTy} {o : SObj} {Q : Unit → Own → Prop} (hi : s.Inv (o.members ++ W)) (hc : cls.takes o.ty = true)
    (he : o.entries ≠ [] → o.ty = none) (hd : o.deriv = none) (hq : ∀ s', s'.Inv W → Q () s') : OnEnd (newSignal cls o) s Q E := by
  have hm : ∀ x ∈ o.members, s.live x = true := fun x hx => hi.pending (List.mem_append_left _ hx)
  have hf : s.live s.next = false := by
    cases h : s.live s.next with
    | false => rfl
    | true => exact absurd (hi.born _ h) (Nat.lt_irrefl _)
  have hz : s.rc s.next = 0 := by
    have := hi.live s.next
    rw [hf] at this; simp at this; exact this
  refine hq _ ⟨fun x => ?_, fun x => ?_, fun x hx => ?_, fun y hy x hx => ?_, fun y hy x hx => ?_, fun j hj x hx => ?_⟩
  · have h1 := hi.cnt x
    show upd s.rc s.next 2 x = Own.refs _ x + _
    have e1 : ((List.range (s.top + 1)).flatMap fun i : Nat => (upd s.ref s.top ⟨some cls, some s.next, some s.next⟩ i).targets).count x =
        ((List.range s.top).flatMap fun i : Nat => (s.ref i).targets).count x + [s.next, s.next].count x := by
      rw [List.range_succ, List.flatMap_append, List.count_append, count_same (g := fun i => (s.ref i).targets) x fun j hj => by simp [upd, Nat.ne_of_lt hj]]
      simp [upd, Ref.targets]
    have e2 : ((List.range (s.next + 1)).flatMap fun y : Nat => if upd s.live s.next true y then (upd s.obj s.next o y).members else []).count x =
        ((List.range s.next).flatMap fun y : Nat => if s.live y then (s.obj y).members else []).count x + o.members.count x := by
      rw [List.range_succ, List.flatMap_append, List.count_append,
        count_same (g := fun y => if s.live y then (s.obj y).members else []) x fun j hj => by simp [upd, Nat.ne_of_lt hj]]
      simp [upd]
    unfold Own.refs at h1 ⊢
    simp only [e1, e2]
    rw [List.count_append] at h1
    by_cases e : x = s.next
    · subst e
      simp only [upd, if_true, List.count_cons_self, List.count_nil]
      omega
    · simp only [upd, if_neg e, List.count_cons_of_ne (Ne.symm e), List.count_nil]
      omega
  · show upd s.live s.next true x = true ↔ 0 < upd s.rc s.next 2 x
    by_cases e : x = s.next
    · subst e; simp [upd]
    · simp only [upd, if_neg e]; exact hi.live x
  · by_cases e : x = s.next
    · subst e; exact Nat.lt_succ_self _
    · simp only [upd, if_neg e] at hx; exact Nat.lt_succ_of_lt (hi.born x hx)
  · by_cases e : y = s.next
    · subst e
      simp only [upd, if_true] at hx ⊢
      exact ⟨he (List.ne_nil_of_mem hx), hi.born x (hm x (List.mem_append_left _ hx))⟩
    · simp only [upd, if_neg e] at hx ⊢
      exact hi.entries y (Nat.lt_of_le_of_ne (Nat.le_of_lt_succ hy) e) x hx
  · by_cases e : y = s.next
    · subst e; simp only [upd, if_true, hd] at hx; cases hx
    · simp only [upd, if_neg e] at hx ⊢
      obtain ⟨k1, k2, k3⟩ := hi.deriv y (Nat.lt_of_le_of_ne (Nat.le_of_lt_succ hy) e) x hx
      refine ⟨k1, Nat.lt_succ_of_lt k2, ?_⟩
      rw [if_neg (Nat.ne_of_lt k2)]; exact k3
  · have hj : j < s.top + 1 := hj
    by_cases e : j = s.top
    · subst e
      simp only [upd, if_true] at hx ⊢
      cases hx
      exact ⟨cls, rfl, by simpa using hc⟩
    · simp only [upd, if_neg e] at hx ⊢
      obtain ⟨c, k1, k2⟩ := hi.typed j (by omega) x hx
      have : s.live x = true := hi.ref (i := j) (by omega) (by unfold Ref.targets; rw [hx]; simp)
      exact ⟨c, k1, by rw [if_neg (Nat.ne_of_lt (hi.born x this))]; exact k2⟩

theorem OnEnd.takeEntries {l : List Nat} : ∀ {s : Own} {W : List SigId} {Q : List SigId → Own → Prop}, s.Inv W → (∀ i ∈ l, i < s.top ∧ (s.ref i).ptr.isSome) →
    (∀ xs s', s'.Inv (xs ++ W) → Q xs s') → OnEnd (takeEntries l) s Q E := by
  induction l with
  | nil => exact fun hi _ hq => hq [] _ hi
  | cons i is ih =>
    intro s W Q hi hv hq
    obtain ⟨h1, h2⟩ := hv i (.head _)
    obtain ⟨x, hx⟩ := Option.isSome_iff_exists.1 h2
    have hl : s.live x = true := hi.ref h1 (by unfold Ref.targets; rw [hx]; simp)
    unfold Pooya.takeEntries
    refine .get (.bind (.follow hx hl (.bind (.grab (o := some x) hi (fun y hy => by cases hy; exact hl) fun s1 k1 k2 k3 k4 k5 k6 => ?_))))
    refine .bind (ih k6 (fun j hj => by rw [k4, k5]; exact hv j (.tail _ hj)) fun xs s2 j1 => ?_)
    exact hq _ _ (j1.perm fun y => by simp [List.count_append, List.count_cons]; omega)

theorem OnEnd.putDeriv {x y : SigId} {Q : Unit → Own → Prop} (hi : s.Inv []) (hx : s.live x = true) (hy : s.live y = true)
    (tx : (s.obj x).ty ≠ none) (ty : (s.obj y).ty ≠ none) (hq : ∀ s', s'.Inv [] → Q () s') : OnEnd (putDeriv x y) s Q E := by
  unfold Pooya.putDeriv
  refine .bind (.grab (o := some y) hi (fun z hz => by cases hz; exact hy) fun s1 k1 k2 k3 k4 k5 k6 => ?_)
  refine .get ?_
  have hi2 : Own.Inv { s1 with obj := upd s1.obj x { s1.obj x with deriv := some y } } (s1.obj x).deriv.toList := by
    have hb := hi.born x hx
    have same : ∀ z, (upd s1.obj x { s1.obj x with deriv := some y } z).ty = (s1.obj z).ty := fun z => by
      by_cases e : z = x
      · subst e; simp [upd]
      · simp [upd, e]
    refine ⟨fun z => ?_, k6.live, k6.born, fun w hw z hz => ?_, fun w hw z hz => ?_, fun i hi' z hz => ?_⟩
    · have h1 := k6.cnt z
      have h2 := count_upd (n := s1.next) (g := fun y => if s1.live y then (s1.obj y).members else [])
        (g' := fun z => if s1.live z then (upd s1.obj x { s1.obj x with deriv := some y } z).members else []) z (by rw [k3]; exact hb)
        (fun j hj => by simp [upd, hj])
      simp only [k2, hx, if_true, upd, SObj.members, List.count_append] at h2
      simp only [Own.refs, SObj.members, Option.toList, List.append_nil, k2] at h1
      show s1.rc z = Own.refs _ z + _
      simp only [Own.refs, SObj.members, k2, upd] at h1 ⊢
      simp only [Option.toList] at h1 h2 ⊢
      omega
    · show (upd s1.obj x _ w).ty = none ∧ z < w
      rw [same]
      refine k6.entries w hw z ?_
      by_cases e : w = x
      · subst e; simpa [upd] using hz
      · simpa [upd, e] using hz
    · show (upd s1.obj x _ w).ty ≠ none ∧ z < s1.next ∧ (upd s1.obj x _ z).ty ≠ none
      rw [same, same]
      by_cases e : w = x
      · subst e
        simp only [upd, if_true] at hz
        cases hz
        rw [k1, k3]
        exact ⟨tx, hi.born _ hy, ty⟩
      · simp only [upd, if_neg e] at hz
        exact k6.deriv w hw z hz
    · obtain ⟨c, h1, h2⟩ := k6.typed i hi' z hz
      exact ⟨c, h1, by show c.takes (upd s1.obj x _ z).ty = true; rw [same]; exact h2⟩
  exact .bind (.destroyPtrs hi2 fun s' h _ _ _ _ => hq s' h)

end Pooya
