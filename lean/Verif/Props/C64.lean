import Verif.Proof.Ownership
import Mathlib.Data.Fintype.Pigeonhole

/-! # C64: who keeps signals alive -/

namespace Pooya.C64

open Pooya

set_option linter.unusedSectionVars false

variable {s s' : Own}

theorem mem_ptr {r : Ref} {x : SigId} (h : r.ptr = some x) : x ∈ r.targets := by unfold Ref.targets; rw [h]; simp

theorem mem_typed {r : Ref} {x : SigId} (h : r.typed = some x) : x ∈ r.targets := by unfold Ref.targets; rw [h]; simp

theorem exec_inv (hi : s.Inv []) (op : OOp) (hv : op.Valid s) : OnEnd op.exec s (fun _ s' => s'.Inv []) (fun s' => s'.Inv []) := by
  cases op with
  | value t => exact .newSignal (W := []) hi (by cases t <;> rfl) (fun h => absurd rfl h) rfl fun _ h => h
  | bus l =>
    refine .bind (.takeEntries hi hv fun xs s1 h1 => ?_)
    exact .newSignal (W := []) (h1.perm fun x => by simp [SObj.members]) rfl (fun _ => rfl) rfl fun _ h => h
  | clone i =>
    have hv : i < s.top := hv
    refine .get (.bind (.grab (o := (s.ref i).ptr) hi (fun x hx => hi.ref hv (mem_ptr hx)) fun s1 k1 k2 k3 k4 k5 k6 => ?_))
    refine .bind (.grab (o := (s.ref i).typed) k6 (fun x hx => by rw [k2]; exact hi.ref hv (mem_typed hx)) fun s2 j1 j2 j3 j4 j5 j6 => ?_)
    exact .newRef (W := []) (j6.perm fun x => by simp [Ref.targets, List.count_append]) (fun x hx => by rw [j1, k1]; exact hi.typed i hv x hx) fun _ h => h
  | plain i =>
    have hv : i < s.top := hv
    refine .get (.bind (.grab (o := (s.ref i).ptr) hi (fun x hx => hi.ref hv (mem_ptr hx)) fun s1 k1 k2 k3 k4 k5 k6 => ?_))
    exact .newRef (W := []) (k6.perm fun x => by simp [Ref.targets]) (fun x hx => by cases hx) fun _ h => h
  | cast i cls =>
    obtain ⟨h1, h2⟩ := hv
    obtain ⟨x, hx⟩ := Option.isSome_iff_exists.1 h2
    have hl := hi.ref h1 (mem_ptr hx)
    refine .get (.bind (.follow hx hl (.get ?_)))
    split
    · next ht =>
      refine .bind (.grab (o := some x) hi (fun y hy => by cases hy; exact hl) fun s1 k1 k2 k3 k4 k5 k6 => ?_)
      refine .bind (.grab (o := some x) k6 (fun y hy => by cases hy; rw [k2]; exact hl) fun s2 j1 j2 j3 j4 j5 j6 => ?_)
      exact .newRef (W := []) (j6.perm fun x => by simp [Ref.targets]) (fun y hy => ⟨cls, rfl, by cases hy; rw [j1, k1]; exact ht⟩) fun _ h => h
    · exact .throw hi
  | entry i k =>
    obtain ⟨h1, -, h2⟩ := hv
    obtain ⟨x, hx⟩ := Option.isSome_iff_exists.1 h2
    have hl := hi.ref h1 (mem_typed hx)
    refine .get (.bind (.follow hx hl (.get ?_)))
    cases he : (s.obj x).entries[k]? with
    | none => exact .throw hi
    | some y =>
      have hy : s.live y = true := hi.member hl (List.mem_append_left _ (List.mem_of_getElem? he))
      refine .bind (.grab (o := some y) hi (fun z hz => by cases hz; exact hy) fun s1 k1 k2 k3 k4 k5 k6 => ?_)
      exact .newRef (W := []) (k6.perm fun x => by simp [Ref.targets]) (fun x hx => by cases hx) fun _ h => h
  | reset i j cls =>
    obtain ⟨h1, h2, h3, h4⟩ := hv
    obtain ⟨y, hy⟩ := Option.isSome_iff_exists.1 h4
    have hl := hi.ref h3 (mem_ptr hy)
    refine .get (.bind (.follow hy hl (.get ?_)))
    split
    · next ht =>
      refine .bind (.grab (o := some y) hi (fun z hz => by cases hz; exact hl) fun s1 k1 k2 k3 k4 k5 k6 => .get (.bind ?_))
      refine .putRef (W' := (s1.ref i).ptr.toList) k6 (by rw [k5]; exact h1) (fun x hx => k6.typed i (by rw [k5]; exact h1) x hx)
        (fun x => by simp [Ref.targets, List.count_append]; omega) fun h5 => .bind (.destroyPtrs h5 fun s2 j1 j2 j3 j4 j5 => ?_)
      have hy2 : (s2.ref i).ptr = some y := by rw [j4]; simp [upd]
      have hi2 : i < s2.top := by rw [j5]; show i < s1.top; rw [k5]; exact h1
      have hl2 := j1.ref hi2 (mem_ptr hy2)
      refine .bind (.grab (o := some y) j1 (fun z hz => by cases hz; exact hl2) fun s3 m1 m2 m3 m4 m5 m6 => .get (.bind ?_))
      refine .putRef (W' := (s3.ref i).typed.toList) m6 (by rw [m5]; exact hi2) (fun x hx => ?_)
        (fun x => by simp [Ref.targets, List.count_append, List.count_cons]; omega) fun h6 => .destroyPtrs h6 fun s4 n1 _ _ _ _ => n1
      cases hx
      refine ⟨cls, ?_, ?_⟩
      · rw [m4, j4]; simp only [upd, if_true]; rw [k4]; exact h2
      · rw [m1, j2]; show cls.takes (s1.obj y).ty = true; rw [k1]; exact ht
    · refine .get (.bind (.putRef (W' := (s.ref i).ptr.toList) hi h1 (fun x hx => hi.typed i h1 x hx)
        (fun x => by simp [Ref.targets, List.count_append]; omega) fun h5 => .bind (.destroyPtrs h5 fun s2 j1 _ _ _ _ => .throw j1)))
  | deriv i j =>
    obtain ⟨h1, -, h2, h3, h4⟩ := hv
    obtain ⟨x, hx⟩ := Option.isSome_iff_exists.1 h2
    obtain ⟨y, hy⟩ := Option.isSome_iff_exists.1 h4
    have lx := hi.ref h1 (mem_typed hx)
    have ly := hi.ref h3 (mem_ptr hy)
    refine .get (.bind (.follow hx lx (.get (.bind (.follow hy ly (.get (.get ?_)))))))
    split
    · next tx ty => exact .putDeriv hi lx ly (by rw [tx]; simp) (by rw [ty]; simp) fun _ h => h
    · next tx ty =>
      refine .bind (.putDeriv hi lx ly (by rw [tx]; simp) (by rw [ty]; simp) fun _ h => ?_)
      split
      · exact .pure h
      · exact .throw h
    · exact .throw hi
  | drop i =>
    have hv : i < s.top := hv
    refine .get (.bind (.putRef (W' := (s.ref i).targets) hi hv (fun x hx => by cases hx) (fun x => by simp [Ref.targets]) fun h5 => ?_))
    exact .destroyPtrs h5 fun s2 j1 _ _ _ _ => j1

theorem inv (hr : s.Reached) : s.Inv [] := by
  induction hr with
  | empty => exact Own.Inv.mk (fun _ => rfl) (fun _ => by simp [Own.empty]) (fun _ h => by cases h) (fun _ h => by cases h) (fun _ h => by cases h) (fun _ h => by cases h)
  | step op _ hv he ih =>
    have := exec_inv ih op hv
    unfold OnEnd at this
    rcases he with he | ⟨e, he⟩
    · rw [he] at this; exact this
    · rw [he] at this; exact this

/-- C64, counts: the reference count of each signal is the number of pointers to it in handles and in signals that have not been destroyed; a signal
is destroyed when, and only when, no such pointer is left. -/
theorem C64_counts (hr : s.Reached) (x : SigId) : s.rc x = s.refs x ∧ (s.live x = true ↔ 0 < s.refs x) := by
  have hi := inv hr
  have h := hi.cnt x
  rw [List.count_nil, Nat.add_zero] at h
  exact ⟨h, h ▸ hi.live x⟩

/-- C64, no dangling pointers: no call on handles that are not null has undefined behaviour - in particular none uses or destroys a signal that has been
destroyed -, and the bound on the number of destroyed pointers is never reached. -/
theorem C64_defined (hr : s.Reached) (op : OOp) (hv : op.Valid s) :
    (∃ s', op.exec s = .ok () s' ∧ s'.Reached) ∨ ∃ e s', op.exec s = .error (.exc e) s' ∧ s'.Reached := by
  have := exec_inv (inv hr) op hv
  unfold OnEnd at this
  cases he : op.exec s with
  | ok u s' => exact .inl ⟨s', rfl, .step op hr hv (.inl he)⟩
  | error e s' =>
    rw [he] at this
    cases e with
    | exc e => exact .inr ⟨e, s', rfl, .step op hr hv (.inr ⟨e, he⟩)⟩
    | ub u => exact this.elim
    | fuel => exact this.elim

/-- C64, accessible signals have not been destroyed. -/
theorem C64_alive (hr : s.Reached) {x : SigId} (hx : s.Accessible x) : s.live x = true := by
  obtain ⟨y, ⟨i, h1, h2⟩, h3⟩ := hx
  have hi := inv hr
  induction h3 with
  | refl => exact hi.ref h1 h2
  | tail _ h4 _ => exact hi.member h4.1 h4.2

/-- A typed handle refers to a signal of its class. -/
theorem C64_typed (hr : s.Reached) {i : Nat} (hi : i < s.top) {x : SigId} (hx : (s.ref i).typed = some x) :
    s.live x = true ∧ ∃ c, (s.ref i).cls = some c ∧ OfClass c (s.obj x).ty := by
  refine ⟨(inv hr).ref hi (mem_typed hx), ?_⟩
  obtain ⟨c, h1, h2⟩ := (inv hr).typed i hi x hx
  refine ⟨c, h1, ?_⟩
  revert h2
  generalize (s.obj x).ty = ty
  cases c <;> rcases ty with _ | (_ | _ | _ | _) <;> first | (intro h; cases h; done) | (intro _; constructor)

/-! ## Signals that are not accessible -/

/-- The full claim: a signal is destroyed as soon as the program has no access to it any more. -/
def C64_full : Prop := ∀ s : Own, s.Reached → ∀ x, s.live x = true → s.Accessible x

theorem referrer (hi : s.Inv []) {x : SigId} (hx : s.live x = true) : s.Named x ∨ ∃ y, s.Keeps y x := by
  have h1 := (hi.live x).1 hx
  rw [hi.cnt] at h1
  unfold Own.refs at h1
  simp only [List.count_nil, Nat.add_zero] at h1
  rcases Nat.add_pos_iff_pos_or_pos.1 h1 with h | h
  · obtain ⟨i, h2, h3⟩ := List.mem_flatMap.1 (List.count_pos_iff.1 h)
    exact .inl ⟨i, List.mem_range.1 h2, h3⟩
  · obtain ⟨y, h2, h3⟩ := List.mem_flatMap.1 (List.count_pos_iff.1 h)
    cases hy : s.live y with
    | false => rw [hy] at h3; simp at h3
    | true => rw [hy] at h3; exact .inr ⟨y, hy, by simpa using h3⟩

theorem keeps_cases {x y : SigId} (h : s.Keeps y x) : s.live y = true ∧ (x ∈ (s.obj y).entries ∨ s.DerivOf y x) := by
  refine ⟨h.1, ?_⟩
  rcases List.mem_append.1 h.2 with h2 | h2
  · exact .inl h2
  · exact .inr ⟨h.1, by simpa using h2⟩

theorem accessible_keeps {x y : SigId} (hy : s.Accessible y) (h : s.Keeps y x) : s.Accessible x :=
  let ⟨z, h1, h2⟩ := hy
  ⟨z, h1, h2.tail h⟩

/-- All buses that have not been destroyed are accessible. -/
theorem bus_accessible (hi : s.Inv []) : ∀ (n : Nat) (x : SigId), s.next - x ≤ n → s.live x = true → (s.obj x).ty = none → s.Accessible x := by
  intro n
  induction n with
  | zero => intro x h1 h2 _; have h3 : x < s.next := hi.born x h2; have : s.next - x ≠ 0 := Nat.sub_ne_zero_of_lt h3; exact absurd (Nat.le_zero.1 h1) this
  | succ n ih =>
    intro x h1 h2 h3
    rcases referrer hi h2 with h4 | ⟨y, h4⟩
    · exact ⟨x, h4, .refl⟩
    · obtain ⟨hy, h5 | h5⟩ := keeps_cases h4
      · obtain ⟨h6, h7⟩ := hi.entries y (hi.born y hy) x h5
        have h8 : y < s.next := hi.born y hy
        refine accessible_keeps (ih y ?_ hy h6) h4
        have key : ∀ a b c d : Nat, a < b → b < c → c - a ≤ d + 1 → c - b ≤ d := by omega
        exact key x y s.next n h7 h8 h1
      · exact absurd h3 (hi.deriv y (hi.born y hy) x h5.2).2.2

/-- C64, what is left behind: a signal that is neither accessible nor destroyed is kept by a cycle of signals each of which is the derivative of the next - by itself, or
by a chain of derivatives that starts on such a cycle. -/
theorem C64_leak (hr : s.Reached) {x : SigId} (hx : s.live x = true) (ha : ¬ s.Accessible x) :
    ∃ y, Relation.TransGen s.DerivOf y y ∧ Relation.ReflTransGen s.DerivOf y x := by
  have hi := inv hr
  have step : ∀ z : { z : SigId // s.live z = true ∧ ¬ s.Accessible z }, ∃ w : { z : SigId // s.live z = true ∧ ¬ s.Accessible z }, s.DerivOf w.1 z.1 := by
    rintro ⟨z, h1, h2⟩
    rcases referrer hi h1 with h4 | ⟨y, h4⟩
    · exact absurd ⟨z, h4, .refl⟩ h2
    · obtain ⟨hy, h5 | h5⟩ := keeps_cases h4
      · exact absurd (accessible_keeps (bus_accessible hi _ y (Nat.le_refl _) hy (hi.entries y (hi.born y hy) z h5).1) h4) h2
      · exact ⟨⟨y, hy, fun h => h2 (accessible_keeps h h4)⟩, h5⟩
  choose pred hpred using step
  let f : Nat → { z : SigId // s.live z = true ∧ ¬ s.Accessible z } := fun n => Nat.rec ⟨x, hx, ha⟩ (fun _ z => pred z) n
  have hf : ∀ n, s.DerivOf (f (n + 1)).1 (f n).1 := fun n => hpred (f n)
  have chain : ∀ m k, Relation.ReflTransGen s.DerivOf (f (m + k)).1 (f m).1 := by
    intro m k
    induction k with
    | zero => exact .refl
    | succ k ih => exact .head (hf (m + k)) ih
  obtain ⟨i, j, hij, e⟩ := Finite.exists_ne_map_eq_of_infinite (fun n : Nat => (⟨(f n).1, hi.born _ (f n).2.1⟩ : Fin s.next))
  have e : (f i).1 = (f j).1 := congrArg Fin.val e
  have cyc : ∀ i j, i < j → (f i).1 = (f j).1 → ∃ y, Relation.TransGen s.DerivOf y y ∧ Relation.ReflTransGen s.DerivOf y x := by
    intro i j h e
    obtain ⟨k, rfl⟩ := Nat.exists_eq_add_of_lt h
    refine ⟨(f i).1, ?_, by have := chain 0 i; rwa [Nat.zero_add] at this⟩
    have h1 : Relation.TransGen s.DerivOf (f (i + k + 1)).1 (f i).1 := Relation.TransGen.head' (hf (i + k)) (chain i k)
    rwa [← e] at h1
  rcases Nat.lt_or_gt_of_ne hij with h | h
  · exact cyc i j h e
  · exact cyc j i h e.symm

/-- Without such cycles, signals live exactly as long as they are accessible.  In particular all are destroyed when the last handle is. -/
theorem C64_partial (hr : s.Reached) (hc : ∀ x, ¬ Relation.TransGen s.DerivOf x x) (x : SigId) : s.live x = true ↔ s.Accessible x :=
  ⟨fun hx => by_contra fun ha => let ⟨y, h, _⟩ := C64_leak hr hx ha; hc y h, C64_alive hr⟩

/-! ## Such signals are never destroyed -/

/-- The signals in `C` exist, and no handle and no other signal refers to them. -/
structure Apart (C : SigId → Prop) (s : Own) : Prop where
  ref : ∀ i < s.top, ∀ x ∈ (s.ref i).targets, ¬ C x
  obj : ∀ y, s.live y = true → ¬ C y → ∀ x ∈ (s.obj y).members, ¬ C x
  live : ∀ x, C x → s.live x = true ∧ x < s.next

variable {C : SigId → Prop}

/-- If the call returns, `Q` holds; if an exception leaves it, the signals are still apart. -/
def Leaves {α : Type} (C : SigId → Prop) (x : OM α) (s : Own) (Q : α → Own → Prop) : Prop :=
  match x s with
  | .ok a s' => Q a s'
  | .error (.exc _) s' => Apart C s'
  | .error _ _ => True

variable {α β : Type}

theorem leaves_bind {x : OM α} {f : α → OM β} {Q : β → Own → Prop} (h : Leaves C x s (fun a s' => Leaves C (f a) s' Q)) : Leaves C (x >>= f) s Q := by
  unfold Leaves at h ⊢
  rw [om_bind]
  cases e : x s with
  | ok a s' => rw [e] at h; exact h
  | error er s' => rw [e] at h; cases er <;> exact h

theorem leaves_get {f : Own → OM β} {Q : β → Own → Prop} (h : Leaves C (f s) s Q) : Leaves C (do let s ← get; f s) s Q := leaves_bind h

theorem leaves_pure {a : α} {Q : α → Own → Prop} (h : Q a s) : Leaves C (pure a : OM α) s Q := h

theorem leaves_throw {e : Exc} {Q : α → Own → Prop} (h : Apart C s) : Leaves C (throw (.exc e) : OM α) s Q := h

theorem leaves_follow {o : Option SigId} {Q : SigId → Own → Prop} (h : ∀ x, o = some x → s.live x = true → Q x s) : Leaves C (follow o) s Q := by
  cases o with
  | none => trivial
  | some x =>
    unfold Leaves Pooya.follow
    simp only
    by_cases hl : s.live x = true
    · rw [if_pos hl]; exact h x rfl hl
    · rw [if_neg hl]; trivial

theorem leaves_grab {o : Option SigId} {Q : Unit → Own → Prop} (ha : Apart C s)
    (h : ∀ s', Apart C s' → s'.obj = s.obj → s'.ref = s.ref → s'.top = s.top → s'.live = s.live → Q () s') : Leaves C (grab o) s Q := by
  cases o with
  | none => exact h s ha rfl rfl rfl rfl
  | some x =>
    unfold Leaves Pooya.grab
    simp only
    by_cases hl : s.live x = true
    · rw [if_pos hl]; exact h _ ⟨ha.ref, ha.obj, ha.live⟩ rfl rfl rfl rfl
    · rw [if_neg hl]; trivial

theorem leaves_letGo (n : Nat) : ∀ {s : Own} {W : List SigId} {Q : Unit → Own → Prop}, Apart C s → (∀ x ∈ W, ¬ C x) →
    (∀ s', Apart C s' → s'.obj = s.obj → s'.ref = s.ref → s'.top = s.top → Q () s') → Leaves C (letGo n W) s Q := by
  induction n with
  | zero =>
    intro s W Q ha _ hq
    cases W with
    | nil => exact hq s ha rfl rfl rfl
    | cons x l => trivial
  | succ n ih =>
    intro s W Q ha hw hq
    cases W with
    | nil => exact hq s ha rfl rfl rfl
    | cons x l =>
      have hx := hw x (.head _)
      unfold Leaves
      rw [letGo_cons]
      by_cases h0 : s.live x = false ∨ s.rc x = 0
      · rw [if_pos h0]; trivial
      · rw [if_neg h0]
        by_cases h1 : s.rc x = 1
        · rw [if_pos h1]
          have hlx : s.live x = true := by
            cases h : s.live x with
            | true => rfl
            | false => exact absurd (.inl h) h0
          refine ih (s := { s with rc := upd s.rc x 0, live := upd s.live x false }) ⟨ha.ref, fun y hy => ?_, fun y hy => ?_⟩ (fun y hy => ?_) fun s' k1 k2 k3 k4 => hq s' k1 k2 k3 k4
          · by_cases e : y = x
            · subst e; simp [upd] at hy
            · simp only [upd, if_neg e] at hy; exact ha.obj y hy
          · have e : y ≠ x := fun e => hx (e ▸ hy)
            simp only [upd, if_neg e]
            exact ha.live y hy
          · rcases List.mem_append.1 hy with h | h
            · exact ha.obj x hlx hx y h
            · exact hw y (.tail _ h)
        · rw [if_neg h1]
          exact ih (s := { s with rc := upd s.rc x (s.rc x - 1) }) ⟨ha.ref, ha.obj, ha.live⟩ (fun y hy => hw y (.tail _ hy)) fun s' k1 k2 k3 k4 => hq s' k1 k2 k3 k4

theorem leaves_destroy {W : List SigId} {Q : Unit → Own → Prop} (ha : Apart C s) (hw : ∀ x ∈ W, ¬ C x)
    (hq : ∀ s', Apart C s' → s'.obj = s.obj → s'.ref = s.ref → s'.top = s.top → Q () s') : Leaves C (destroyPtrs W) s Q := leaves_letGo s.total ha hw hq

theorem leaves_putRef {i : Nat} {r : Ref} {Q : Unit → Own → Prop} (ha : Apart C s) (hr : ∀ x ∈ r.targets, ¬ C x)
    (hq : Apart C { s with ref := upd s.ref i r } → Q () { s with ref := upd s.ref i r }) : Leaves C (putRef i r) s Q := by
  refine hq ⟨fun j hj => ?_, ha.obj, ha.live⟩
  by_cases e : j = i
  · subst e; simp only [upd, if_true]; exact hr
  · simp only [upd, if_neg e]; exact ha.ref j hj

theorem leaves_newRef {r : Ref} (ha : Apart C s) (hr : ∀ x ∈ r.targets, ¬ C x) : Leaves C (newRef r) s fun _ => Apart C := by
  refine ⟨fun j hj => ?_, ha.obj, ha.live⟩
  by_cases e : j = s.top
  · subst e; simp only [upd, if_true]; exact hr
  · simp only [upd, if_neg e]; exact ha.ref j (by have hj : j < s.top + 1 := hj; omega)

theorem leaves_newSignal {cls : HandleTy} {o : SObj} (ha : Apart C s) (hm : ∀ x ∈ o.members, ¬ C x) : Leaves C (newSignal cls o) s fun _ => Apart C := by
  have hn : ¬ C s.next := fun h => Nat.lt_irrefl _ (ha.live _ h).2
  refine ⟨fun j hj => ?_, fun y hy => ?_, fun y hy => ?_⟩
  · by_cases e : j = s.top
    · subst e
      simp only [upd, if_true, Ref.targets, Option.toList, List.cons_append, List.nil_append]
      intro x hx
      simp only [List.mem_cons, List.not_mem_nil, or_false, or_self] at hx
      exact hx ▸ hn
    · simp only [upd, if_neg e]; exact ha.ref j (by have hj : j < s.top + 1 := hj; omega)
  · by_cases e : y = s.next
    · subst e; simp only [upd, if_true]; exact fun _ => hm
    · simp only [upd, if_neg e] at hy ⊢; exact ha.obj y hy
  · have e : y ≠ s.next := fun e => hn (e ▸ hy)
    simp only [upd, if_neg e]
    exact ⟨(ha.live y hy).1, Nat.lt_succ_of_lt (ha.live y hy).2⟩

theorem leaves_putDeriv {x y : SigId} {Q : Unit → Own → Prop} (ha : Apart C s) (hl : s.live x = true) (hx : ¬ C x) (hy : ¬ C y)
    (hq : ∀ s', Apart C s' → Q () s') : Leaves C (putDeriv x y) s Q := by
  refine leaves_bind (leaves_grab (o := some y) ha fun s1 k1 k2 k3 k4 k5 => leaves_get ?_)
  have ha2 : Apart C { s1 with obj := upd s1.obj x { s1.obj x with deriv := some y } } := by
    refine ⟨k1.ref, fun z hz hc w hw => ?_, k1.live⟩
    by_cases e : z = x
    · subst e
      simp only [upd, if_true, SObj.members, Option.toList, List.mem_append, List.mem_singleton] at hw
      rcases hw with h | h
      · exact k1.obj z hz hc w (List.mem_append_left _ h)
      · exact h ▸ hy
    · simp only [upd, if_neg e] at hw; exact k1.obj z hz hc w hw
  refine leaves_bind (leaves_destroy ha2 (fun w hw => k1.obj x (by rw [k5]; exact hl) hx w (List.mem_append_right _ hw)) fun s' h _ _ _ => hq s' h)

theorem leaves_takeEntries {l : List Nat} : ∀ {s : Own} {Q : List SigId → Own → Prop}, Apart C s → (∀ i ∈ l, i < s.top) →
    (∀ xs s', Apart C s' → (∀ x ∈ xs, ¬ C x) → Q xs s') → Leaves C (takeEntries l) s Q := by
  induction l with
  | nil => exact fun ha _ hq => hq [] _ ha (fun _ h => by cases h)
  | cons i is ih =>
    intro s Q ha hv hq
    refine leaves_get (leaves_bind (leaves_follow fun x hx _ => leaves_bind (leaves_grab (o := some x) ha fun s1 k1 k2 k3 k4 k5 => ?_)))
    refine leaves_bind (ih k1 (fun j hj => by rw [k4]; exact hv j (.tail _ hj)) fun xs s2 j1 j2 => ?_)
    refine hq _ _ j1 fun y hy => ?_
    rcases List.mem_cons.1 hy with rfl | hy
    · exact ha.ref i (hv i (.head _)) y (mem_ptr hx)
    · exact j2 y hy

theorem exec_apart (ha : Apart C s) (op : OOp) (hv : op.Valid s) : Leaves C op.exec s fun _ => Apart C := by
  have ptr : ∀ {i}, i < s.top → ∀ x, x ∈ (s.ref i).ptr.toList → ¬ C x := fun h x hx => ha.ref _ h x (List.mem_append_right _ hx)
  have typ : ∀ {i}, i < s.top → ∀ x, x ∈ (s.ref i).typed.toList → ¬ C x := fun h x hx => ha.ref _ h x (List.mem_append_left _ hx)
  have two : ∀ {c : Option HandleTy} {p t : Option SigId}, (∀ x, x ∈ p.toList → ¬ C x) → (∀ x, x ∈ t.toList → ¬ C x) → ∀ x ∈ (Ref.mk c p t).targets, ¬ C x :=
    fun h1 h2 x hx => (List.mem_append.1 hx).elim (h2 x) (h1 x)
  have one : ∀ {x : SigId}, ¬ C x → ∀ y, y ∈ (some x).toList → ¬ C y := fun h y hy => by
    simp only [Option.toList, List.mem_singleton] at hy; exact hy ▸ h
  have non : ∀ y, y ∈ (none : Option SigId).toList → ¬ C y := fun y hy => by cases hy
  cases op with
  | value t => exact leaves_newSignal ha fun x hx => by cases hx
  | bus l =>
    refine leaves_bind (leaves_takeEntries ha (fun i hi => (hv i hi).1) fun xs s1 h1 h2 => ?_)
    exact leaves_newSignal h1 fun x hx => h2 x (by simpa [SObj.members] using hx)
  | clone i =>
    refine leaves_get (leaves_bind (leaves_grab ha fun s1 k1 _ _ _ _ => leaves_bind (leaves_grab k1 fun s2 j1 _ _ _ _ => ?_)))
    exact leaves_newRef j1 (ha.ref i hv)
  | plain i =>
    refine leaves_get (leaves_bind (leaves_grab ha fun s1 k1 _ _ _ _ => ?_))
    exact leaves_newRef k1 (two (ptr hv) non)
  | cast i cls =>
    refine leaves_get (leaves_bind (leaves_follow fun x hx _ => leaves_get ?_))
    have hc := ha.ref i hv.1 x (mem_ptr hx)
    split
    · refine leaves_bind (leaves_grab ha fun s1 k1 _ _ _ _ => leaves_bind (leaves_grab k1 fun s2 j1 _ _ _ _ => ?_))
      exact leaves_newRef j1 (two (one hc) (one hc))
    · exact leaves_throw ha
  | entry i k =>
    refine leaves_get (leaves_bind (leaves_follow fun x hx hl => leaves_get ?_))
    have hc := ha.ref i hv.1 x (mem_typed hx)
    cases he : (s.obj x).entries[k]? with
    | none => exact leaves_throw ha
    | some y =>
      have hy := ha.obj x hl hc y (List.mem_append_left _ (List.mem_of_getElem? he))
      refine leaves_bind (leaves_grab ha fun s1 k1 _ _ _ _ => ?_)
      exact leaves_newRef k1 (two (one hy) non)
  | reset i j cls =>
    obtain ⟨h1, h2, h3, h4⟩ := hv
    refine leaves_get (leaves_bind (leaves_follow fun y hy _ => leaves_get ?_))
    have hc := ha.ref j h3 y (mem_ptr hy)
    split
    · refine leaves_bind (leaves_grab ha fun s1 k1 k2 k3 k4 k5 => leaves_get (leaves_bind ?_))
      rw [k3]
      refine leaves_putRef k1 (two (one hc) (typ h1)) fun m1 => leaves_bind (leaves_destroy m1 (ptr h1) fun s2 j1 j2 j3 j4 => ?_)
      refine leaves_bind (leaves_grab j1 fun s3 n1 n2 n3 n4 n5 => leaves_get (leaves_bind ?_))
      have hi2 : i < s2.top := by rw [j4]; show i < s1.top; rw [k4]; exact h1
      have hi3 : i < s3.top := by rw [n4]; exact hi2
      refine leaves_putRef n1 (two (fun x hx => n1.ref i hi3 x (List.mem_append_right _ hx)) (one hc)) fun m2 => ?_
      exact leaves_destroy m2 (fun x hx => n1.ref i hi3 x (List.mem_append_left _ hx)) fun _ h _ _ _ => h
    · refine leaves_get (leaves_bind (leaves_putRef ha (two non (typ h1)) fun m1 => leaves_bind (leaves_destroy m1 (ptr h1) fun s2 j1 _ _ _ => leaves_throw j1)))
  | deriv i j =>
    obtain ⟨h1, -, h2, h3, h4⟩ := hv
    refine leaves_get (leaves_bind (leaves_follow fun x hx lx => leaves_get (leaves_bind (leaves_follow fun y hy ly => leaves_get (leaves_get ?_)))))
    have cx := ha.ref i h1 x (mem_typed hx)
    have cy := ha.ref j h3 y (mem_ptr hy)
    split
    · exact leaves_putDeriv ha lx cx cy fun _ h => h
    · refine leaves_bind (leaves_putDeriv ha lx cx cy fun _ h => ?_)
      split
      · exact leaves_pure h
      · exact leaves_throw h
    · exact leaves_throw ha
  | drop i =>
    refine leaves_get (leaves_bind (leaves_putRef ha (two non non) fun m1 => ?_))
    exact leaves_destroy m1 (ha.ref i hv) fun _ h _ _ _ => h

/-- C64, permanence: a signal that is neither accessible nor destroyed will never be either, whatever the program does. -/
theorem C64_permanent (hr : s.Reached) {x : SigId} (hx : s.live x = true) (hn : ¬ s.Accessible x) (hl : s.Later s') :
    s'.live x = true ∧ ¬ s'.Accessible x := by
  have ha : Apart (fun x => s.live x = true ∧ ¬ s.Accessible x) s' := by
    induction hl with
    | now =>
      refine ⟨fun i hi y hy h => h.2 ⟨y, ⟨i, hi, hy⟩, .refl⟩, fun y hy hc z hz h => ?_, fun y hy => ⟨hy.1, (inv hr).born y hy.1⟩⟩
      have : s.Accessible y := by_contra fun h => hc ⟨hy, h⟩
      exact h.2 (accessible_keeps this ⟨hy, hz⟩)
    | step op _ hv he ih =>
      have := exec_apart ih op hv
      unfold Leaves at this
      rcases he with he | ⟨e, he⟩
      · rw [he] at this; exact this
      · rw [he] at this; exact this
  refine ⟨(ha.live x ⟨hx, hn⟩).1, ?_⟩
  rintro ⟨y, ⟨i, h1, h2⟩, h3⟩
  have : ∀ z, Relation.ReflTransGen s'.Keeps y z → ¬ (s.live z = true ∧ ¬ s.Accessible z) := by
    intro z hz
    induction hz with
    | refl => exact ha.ref i h1 y h2
    | tail _ h ih => exact ha.obj _ h.1 ih _ h.2
  exact this x h3 ⟨hx, hn⟩

/-- The state after a call. -/
def after (op : OOp) (s : Own) : Own := match op.exec s with | .ok _ s => s | .error _ s => s

theorem Own.Reached.after {op : OOp} (hr : s.Reached) (hv : op.Valid s) : (C64.after op s).Reached := by
  unfold C64.after
  rcases C64_defined hr op hv with ⟨s', h1, h2⟩ | ⟨e, s', h1, h2⟩
  · rw [h1]; exact h2
  · rw [h1]; exact h2

/-- `ScalarSignal x; x->set_deriv_signal(x);` - what `Integrator::connect({x, x})` does (x' = x) -, then `x` goes out of scope. -/
def selfLoop : Own := after (.drop 0) (after (.deriv 0 0) (after (.value .scalar) .empty))

theorem selfLoop_reached : selfLoop.Reached := by
  refine Own.Reached.after (Own.Reached.after (Own.Reached.after .empty trivial) ?_) ?_
  · exact ⟨by decide +kernel, .inl (by decide +kernel), by decide +kernel, by decide +kernel, by decide +kernel⟩
  · show 0 < (after (.deriv 0 0) (after (.value .scalar) .empty)).top
    decide +kernel

theorem selfLoop_inaccessible : ¬ selfLoop.Accessible 0 := by
  rintro ⟨x, ⟨i, h1, h2⟩, -⟩
  have e1 : selfLoop.top = 1 := by decide +kernel
  have e2 : (selfLoop.ref 0).targets = [] := by decide +kernel
  have : i = 0 := by omega
  subst this
  rw [e2] at h2
  cases h2

/-- The claim is false: a signal that is its own derivative is not destroyed; by `C64_permanent` it never will be. -/
theorem C64_refuted : ¬ C64_full := fun h => selfLoop_inaccessible (h selfLoop selfLoop_reached 0 (by decide +kernel))

/-- `ScalarSignal x; IntSignal n; try { x.reset(n); } catch (...) {}` -/
def failedReset : Own := after (.reset 0 1 .scalar) (after (.value .int) (after (.value .scalar) .empty))

/-- A failed `reset` leaves the handle half null: values can still be read through it, but to construct another handle from it, to put it on a bus or to use it as derivative is
undefined. -/
theorem C64_reset_refuted : failedReset.Reached ∧ (failedReset.ref 0).ptr = none ∧ (failedReset.ref 0).typed = some 0 ∧
    (∃ s', (OOp.cast 0 .scalar).exec failedReset = .error (.ub .nullDeref) s') ∧ (∃ s', (OOp.bus [0]).exec failedReset = .error (.ub .nullDeref) s') := by
  refine ⟨?_, by decide +kernel, by decide +kernel, ⟨failedReset, rfl⟩, ⟨failedReset, rfl⟩⟩
  refine Own.Reached.after (Own.Reached.after (Own.Reached.after .empty trivial) trivial) ?_
  exact ⟨by decide +kernel, by decide +kernel, by decide +kernel, by decide +kernel⟩

/-- A mass and spring: `x' = v`, `v' = a`; the bus with `x` outlives the handles. -/
def massSpring : Own :=
  after (.drop 2) (after (.drop 1) (after (.drop 0) (after (.bus [0]) (after (.deriv 1 2) (after (.deriv 0 1) (after (.value .scalar) (after (.value .scalar) (after (.value .scalar) .empty))))))))

theorem massSpring_reached : massSpring.Reached := by
  refine Own.Reached.after (Own.Reached.after (Own.Reached.after (Own.Reached.after (Own.Reached.after (Own.Reached.after (Own.Reached.after (Own.Reached.after (Own.Reached.after .empty
    trivial) trivial) trivial) ?_) ?_) ?_) ?_) ?_) ?_
  · exact ⟨by decide +kernel, .inl (by decide +kernel), by decide +kernel, by decide +kernel, by decide +kernel⟩
  · exact ⟨by decide +kernel, .inl (by decide +kernel), by decide +kernel, by decide +kernel, by decide +kernel⟩
  · intro i hi; rw [List.mem_singleton.1 hi]; exact ⟨by decide +kernel, by decide +kernel⟩
  · exact Nat.lt_of_sub_ne_zero (by decide +kernel)
  · exact Nat.lt_of_sub_ne_zero (by decide +kernel)
  · exact Nat.lt_of_sub_ne_zero (by decide +kernel)

/-- While there is the bus, all three are accessible and none is destroyed; when it is dropped, all are (`C64_counts`, `C64_defined`, `C64_alive`, `C64_typed`, `C64_partial`;
`selfLoop` is an example for `C64_leak` and `C64_permanent`, see `C64_refuted`). -/
example : massSpring.Reached ∧ (∀ x, ¬ Relation.TransGen massSpring.DerivOf x x) ∧ (OOp.drop 3).Valid massSpring ∧ massSpring.live 2 = true ∧ massSpring.refs 2 = 1 ∧
    (after (.drop 3) massSpring).live 2 = false ∧ (after (.drop 3) massSpring).live 0 = false := by
  refine ⟨massSpring_reached, ?_, ?_, by decide +kernel, by decide +kernel, by decide +kernel, by decide +kernel⟩
  · have up : ∀ x y, massSpring.DerivOf x y → x < y := by
      intro x y ⟨h1, h2⟩
      have hx : x < massSpring.next := (inv massSpring_reached).born x h1
      have e : massSpring.next = 4 := by decide +kernel
      rw [e] at hx
      have d0 : (massSpring.obj 0).deriv = some 1 := by decide +kernel
      have d1 : (massSpring.obj 1).deriv = some 2 := by decide +kernel
      have d2 : (massSpring.obj 2).deriv = none := by decide +kernel
      have d3 : (massSpring.obj 3).deriv = none := by decide +kernel
      match x, hx with
      | 0, _ => rw [d0] at h2; cases h2; decide
      | 1, _ => rw [d1] at h2; cases h2; decide
      | 2, _ => rw [d2] at h2; cases h2
      | 3, _ => rw [d3] at h2; cases h2
    have lt : ∀ x y, Relation.TransGen massSpring.DerivOf x y → x < y := by
      intro x y h
      induction h with
      | single h => exact up _ _ h
      | tail _ h ih => exact Nat.lt_trans ih (up _ _ h)
    exact fun x h => Nat.lt_irrefl x (lt x x h)
  · exact Nat.lt_of_sub_ne_zero (by decide +kernel)

end Pooya.C64
