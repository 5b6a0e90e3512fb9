import Verif.Props.C70

/-! A diagram that contains another one. -/

namespace Pooya.Within

open Pooya C69

set_option linter.unusedSectionVars false

/-! ### `connect` does not depend on the derivative links -/

/-- The results of the calls do not depend on the derivative links of the signals. -/
def Steady {α : Type} (x : CM α) : Prop :=
  ∀ c d e a b s u, x ⟨c, d⟩ = .ok a s → x ⟨c, e⟩ = .ok b u → a = b ∧ s.c = u.c

theorem steady_pure {α : Type} (a : α) : Steady (pure a : CM α) := fun c d e a' b s u h1 h2 => by cases h1; cases h2; exact ⟨rfl, rfl⟩

theorem steady_bind {α β : Type} {x : CM α} {f : α → CM β} (hx : Steady x) (hf : ∀ a, Steady (f a)) : Steady (x >>= f) := by
  intro c d e a b s u h1 h2
  obtain ⟨a1, s1, p1, p2⟩ := (bind_ok _ _ _ _ _).1 h1
  obtain ⟨b1, u1, q1, q2⟩ := (bind_ok _ _ _ _ _).1 h2
  obtain ⟨rfl, e⟩ := hx c d e _ _ _ _ p1 q1
  obtain ⟨c1, d1⟩ := s1
  obtain ⟨c2, d2⟩ := u1
  simp only at e
  subst e
  exact hf a1 c1 d1 d2 _ _ _ _ p2 q2

theorem steady_throw {α : Type} (e : Err) : Steady (throwE e : CM α) := fun c d e' a b s u h1 h2 => by cases h1

theorem steady_lift {α : Type} (r : Except Err α) : Steady (liftE r : CM α) := fun c d e a b s u h1 h2 => by
  obtain ⟨e1, rfl⟩ := (liftE_eq_ok _ _ _ _).1 h1
  obtain ⟨e2, rfl⟩ := (liftE_eq_ok _ _ _ _).1 h2
  rw [e1] at e2
  cases e2
  exact ⟨rfl, rfl⟩

theorem steady_block (nIn nOut : Option Nat) (ib ob : Entries) : Steady (blockConnect nIn nOut ib ob) := by
  intro c d e a b s u h1 h2
  unfold blockConnect at h1 h2
  simp only at h1 h2
  split at h1
  · cases h1
  · split at h1
    · cases h1
    · split at h1
      · cases h1
      · rename_i g1 g2 g3
        rw [if_neg g1, if_neg g2, if_neg g3] at h2
        cases h1; cases h2
        exact ⟨rfl, rfl⟩

theorem steady_input (k : Key) : Steady (inputAt k) := by
  intro c d e a b s u h1 h2
  obtain ⟨_, _, g1, h1⟩ := (bind_ok _ _ _ _ _).1 h1
  cases g1
  obtain ⟨x, _, g1, h1⟩ := (bind_ok _ _ _ _ _).1 h1
  obtain ⟨g1', rfl⟩ := (liftE_eq_ok _ _ _ _).1 g1
  obtain ⟨_, _, g2, h2⟩ := (bind_ok _ _ _ _ _).1 h2
  cases g2
  obtain ⟨y, _, g2, h2⟩ := (bind_ok _ _ _ _ _).1 h2
  obtain ⟨g2', rfl⟩ := (liftE_eq_ok _ _ _ _).1 g2
  have e2 := g1'.symm.trans g2'
  cases e2
  cases h1; cases h2
  exact ⟨rfl, rfl⟩

theorem steady_output (k : Key) : Steady (outputAt k) := by
  intro c d e a b s u h1 h2
  obtain ⟨_, _, g1, h1⟩ := (bind_ok _ _ _ _ _).1 h1
  cases g1
  obtain ⟨x, _, g1, h1⟩ := (bind_ok _ _ _ _ _).1 h1
  obtain ⟨g1', rfl⟩ := (liftE_eq_ok _ _ _ _).1 g1
  obtain ⟨_, _, g2, h2⟩ := (bind_ok _ _ _ _ _).1 h2
  cases g2
  obtain ⟨y, _, g2, h2⟩ := (bind_ok _ _ _ _ _).1 h2
  obtain ⟨g2', rfl⟩ := (liftE_eq_ok _ _ _ _).1 g2
  have e2 := g1'.symm.trans g2'
  cases e2
  cases h1; cases h2
  exact ⟨rfl, rfl⟩

theorem steady_handle (ty : HandleTy) (s : Signal) : Steady (bindHandle ty s) := by
  unfold bindHandle
  split
  · exact steady_pure _
  · exact steady_throw _

theorem steady_adjust (s : SigId) (f : Flags → Flags) : Steady (adjustLink s f) := fun c d e a b s u h1 h2 => by
  cases h1; cases h2; exact ⟨rfl, rfl⟩

theorem steady_deriv (o : SigId) (ty : Ty) (x : Signal) : Steady (connDeriv o ty x) := by
  intro c d e a b s u h1 h2
  unfold connDeriv at h1 h2
  simp only at h1 h2
  split at h1 <;> cases h1
  split at h2 <;> cases h2
  exact ⟨rfl, rfl⟩

theorem steady_verify (dbg c : Bool) (e : Exc) : Steady (debugVerify dbg c e : CM Unit) := by
  unfold debugVerify
  split
  · exact steady_throw _
  · exact steady_pure _

theorem steady_in (ty : VTy) : Steady (bindIn ty) := steady_bind (steady_input _) fun _ => steady_handle _ _

theorem steady_out (ty : VTy) : Steady (bindOut ty) := steady_bind (steady_output _) fun _ => steady_handle _ _

theorem steady_cls (dbg : Bool) (c : Cls) (ib ob : Entries) : Steady (c.connect dbg ib ob) := by
  unfold Cls.connect
  split <;> repeat' first
    | exact steady_pure _
    | exact steady_block _ _ _ _
    | exact steady_in _
    | exact steady_out _
    | exact steady_input _
    | exact steady_output _
    | exact steady_handle _ _
    | exact steady_adjust _ _
    | exact steady_deriv _ _ _
    | exact steady_verify _ _ _
    | refine steady_bind ?_ fun _ => ?_

variable {K : Type}

/-- A block becomes the same leaf whatever has been connected before. -/
theorem connect_same {dbg : Bool} {p : Wire K} (hp : p.obj.Plain) {d e d' e' : Derivs} {l k : Leaf K} (h1 : p.connect dbg d = .ok (l, d')) (h2 : p.connect dbg e = .ok (k, e')) : l = k := by
  have hc : ∀ a b c e f, p.obj ≠ .custom a b c e f := fun a b c e f he => by rw [he] at hp; exact hp
  obtain ⟨b1, s1, p1, p2, p3, p4, _⟩ := C58.inv hc h1
  obtain ⟨b2, s2, q1, q2, q3, q4, _⟩ := C58.inv hc h2
  obtain ⟨rfl, e⟩ := steady_cls _ _ _ _ _ _ _ _ _ _ _ p1 q1
  rw [p2] at q2
  obtain ⟨i1, l1, k1⟩ := l
  obtain ⟨i2, l2, k2⟩ := k
  simp only at p2 p3 p4 q2 q3 q4
  cases q2
  rw [p3, q3, p4, q4, e]

/-! ### State vectors -/

variable [A : Arith K]

/-- The components of the state vector. -/
def slots (V : Vars) : List (SigId × Nat) := V.scalars.map (·, 0) ++ V.arrays.flatMap (fun s => (List.range (V.size s)).map (s, ·))

/-- A component of the value of a signal. -/
def comp (val : SigId → Option (Val K)) (q : SigId × Nat) : K :=
  match val q.1 with
  | some (.scalar v) => v
  | some (.array xs) => xs.getD q.2 (Arith.lit 0)
  | _ => Arith.lit 0

theorem comp_array {val : SigId → Option (Val K)} {s : SigId} {v : List K} {n : Nat} (h : val s = some (.array v)) (hn : v.length = n) : (List.range n).map (fun i => comp val (s, i)) = v := by
  subst hn
  refine List.ext_getElem (by simp) fun i h1 h2 => ?_
  simp only [List.getElem_map, List.getElem_range, comp, h]
  rw [List.getD_eq_getElem?_getD, List.getElem?_eq_getElem h2, Option.getD_some]

theorem packed_iff {val : SigId → Option (Val K)} {V : Vars} {size : SigId → Nat} (hsz : ∀ s ∈ V.arrays, size s = V.size s) {x : List K} : Packed val size V.scalars V.arrays x ↔
    (∀ s ∈ V.scalars, ∃ v, val s = some (.scalar v)) ∧ (∀ s ∈ V.arrays, ∃ v, val s = some (.array v) ∧ v.length = size s) ∧ x = (slots V).map (comp val) := by
  have e3 : (slots V).map (comp val) = V.scalars.map (fun s => comp val (s, 0)) ++ (V.arrays.map (fun s => (List.range (size s)).map (fun i => comp val (s, i)))).flatten := by
    unfold slots
    rw [List.map_append, List.map_map, List.map_flatMap, List.flatten_eq_flatMap, List.flatMap_map]
    refine congrArg₂ _ rfl ?_
    rw [List.flatMap_def, List.flatMap_def]
    refine congrArg _ (List.map_congr_left fun s hs => ?_)
    rw [List.map_map, hsz s hs]
    rfl
  rw [e3]
  unfold Packed
  constructor
  · rintro ⟨a, b, h1, h2, rfl⟩
    have l1 : (∀ s ∈ V.scalars, ∃ v, val s = some (.scalar v)) ∧ a = V.scalars.map (fun s => comp val (s, 0)) := by
      clear e3 h2 hsz
      generalize V.scalars = l at h1
      induction h1 with
      | nil => exact ⟨fun s hs => (List.not_mem_nil hs).elim, rfl⟩
      | @cons s v _ _ e _ ih =>
        refine ⟨fun s hs => ?_, by rw [List.map_cons, ← ih.2]; congr 1; simp only [comp, e]⟩
        rcases List.mem_cons.1 hs with rfl | hs
        · exact ⟨_, e⟩
        · exact ih.1 s hs
    have l2 : (∀ s ∈ V.arrays, ∃ v, val s = some (.array v) ∧ v.length = size s) ∧ b = V.arrays.map (fun s => (List.range (size s)).map (fun i => comp val (s, i))) := by
      clear e3 h1 hsz l1
      generalize V.arrays = l at h2
      induction h2 with
      | nil => exact ⟨fun s hs => (List.not_mem_nil hs).elim, rfl⟩
      | @cons s v _ _ e _ ih =>
        refine ⟨fun s hs => ?_, by rw [List.map_cons, ← ih.2]; congr 1; exact (comp_array e.1 e.2).symm⟩
        rcases List.mem_cons.1 hs with rfl | hs
        · exact ⟨_, e⟩
        · exact ih.1 s hs
    exact ⟨l1.1, l2.1, by rw [l1.2, l2.2]⟩
  · rintro ⟨h1, h2, rfl⟩
    refine ⟨_, _, ?_, ?_, rfl⟩
    · rw [List.forall₂_map_right_iff, List.forall₂_same]
      intro s hs
      obtain ⟨v, e⟩ := h1 s hs
      simp only [comp, e]
    · rw [List.forall₂_map_right_iff, List.forall₂_same]
      intro s hs
      obtain ⟨v, e1, e2⟩ := h2 s hs
      rw [comp_array e1 e2]
      exact ⟨e1, e2⟩

/-- The state variables of one diagram are among those of the other. -/
structure Sub (V V' : Vars) : Prop where
  scalars : ∀ s ∈ V.scalars, s ∈ V'.scalars
  arrays : ∀ s ∈ V.arrays, s ∈ V'.arrays
  size : ∀ s ∈ V.arrays, V.size s = V'.size s

variable {V V' : Vars}

theorem Sub.slots (h : Sub V V') : ∀ q ∈ slots V, q ∈ slots V' := by
  intro q hq
  unfold Within.slots at hq ⊢
  rcases List.mem_append.1 hq with hq | hq
  · obtain ⟨s, hs, rfl⟩ := List.mem_map.1 hq
    exact List.mem_append.2 (.inl (List.mem_map.2 ⟨s, h.scalars s hs, rfl⟩))
  · obtain ⟨s, hs, hq⟩ := List.mem_flatMap.1 hq
    rw [h.size s hs] at hq
    exact List.mem_append.2 (.inr (List.mem_flatMap.2 ⟨s, h.arrays s hs, hq⟩))

theorem Sub.packed (h : Sub V V') {val val' : SigId → Option (Val K)} {size size' : SigId → Nat} (hsz : ∀ s ∈ V.arrays, size s = V.size s) (hsz' : ∀ s ∈ V'.arrays, size' s = V'.size s)
    (hv : ∀ s ∈ V.scalars ++ V.arrays, val s = val' s) {g : SigId × Nat → K} (hp : Packed val' size' V'.scalars V'.arrays ((Within.slots V').map g)) :
    Packed val size V.scalars V.arrays ((Within.slots V).map g) := by
  obtain ⟨h1, h2, h3⟩ := (packed_iff hsz').1 hp
  refine (packed_iff hsz).2 ⟨fun s hs => by rw [hv s (List.mem_append.2 (.inl hs))]; exact h1 s (h.scalars s hs), fun s hs => ?_, ?_⟩
  · rw [hsz s hs, h.size s hs, ← hsz' s (h.arrays s hs), hv s (List.mem_append.2 (.inr hs))]
    exact h2 s (h.arrays s hs)
  · rw [List.map_inj_left] at h3 ⊢
    intro q hq
    rw [h3 q (h.slots q hq)]
    have : q.1 ∈ V.scalars ++ V.arrays := by
      unfold Within.slots at hq
      rcases List.mem_append.1 hq with hq | hq
      · obtain ⟨s, hs, rfl⟩ := List.mem_map.1 hq
        exact List.mem_append.2 (.inl hs)
      · obtain ⟨s, hs, hq⟩ := List.mem_flatMap.1 hq
        obtain ⟨i, _, rfl⟩ := List.mem_map.1 hq
        exact List.mem_append.2 (.inr hs)
    simp only [comp, hv q.1 this]

theorem vadd_slots {α : Type} (l : List α) (S T : α → K) : vadd (l.map S) (l.map T) = l.map (fun s => S s +. T s) := by
  unfold vadd
  rw [List.zipWith_map]
  induction l with
  | nil => rfl
  | cons x l ih => rw [List.zipWith_cons_cons, List.map_cons, ih]

theorem vsmul_slots {α : Type} (l : List α) (c : K) (S : α → K) : vsmul c (l.map S) = l.map (fun s => c *. S s) := by
  unfold vsmul
  rw [List.map_map]
  rfl

theorem vsub_slots {α : Type} (l : List α) (S T : α → K) : vsub (l.map S) (l.map T) = l.map (fun s => S s -. T s) := by
  unfold vsub
  rw [List.zipWith_map]
  induction l with
  | nil => rfl
  | cons x l ih => rw [List.zipWith_cons_cons, List.map_cons, ih]

/-! ### The larger diagram solves the equations of the smaller one -/

variable {cfg cfg' : Config K}

/-- How solutions of the second diagram become solutions of the first: the signals in `C` keep their values, `κ` turns the members of the blocks of the second
into members of blocks of the first. -/
structure Contains (κ : (BlkId → Mem K) → BlkId → Mem K) (C : SigId → Prop) (cfg cfg' : Config K) (V V' : Vars) : Prop where
  sub : Sub V V'
  deriv : ∀ s ∈ V.scalars ++ V.arrays, cfg.deriv s = cfg'.deriv s
  slope : ∀ s ∈ V.scalars ++ V.arrays, ∀ d, cfg.deriv s = some d → C d
  size : ∀ s ∈ V.arrays, (cfg.deriv s).elim 0 V.size = V.size s
  size' : ∀ s ∈ V'.arrays, (cfg'.deriv s).elim 0 V'.size = V'.size s
  solution : ∀ {mem : BlkId → Mem K} {t : K} {g : SigId × Nat → K} {val : SigId → Option (Val K)}, Solution cfg' V' mem t ((slots V').map g) val →
    ∃ val2, (∀ s, C s → val2 s = val s) ∧ Solution cfg V (κ mem) t ((slots V).map g) val2
  committed : ∀ {mem mem' : BlkId → Mem K} {t : K} {g : SigId × Nat → K} {val : SigId → Option (Val K)}, Committed cfg' V' mem t ((slots V').map g) val mem' →
    ∃ val2, (∀ s, C s → val2 s = val s) ∧ Committed cfg V (κ mem) t ((slots V).map g) val2 (κ mem')

variable {κ : (BlkId → Mem K) → BlkId → Mem K} {C : SigId → Prop}
variable {mem mem' : BlkId → Mem K} {t u : K} {x d : List K} {val : SigId → Option (Val K)} {g : SigId × Nat → K}

theorem Contains.rhs (h : Contains κ C cfg cfg' V V') (hr : Rhs cfg' V' mem t ((slots V').map g) d) : ∃ f, d = (slots V').map f ∧ Rhs cfg V (κ mem) t ((slots V).map g) ((slots V).map f) := by
  obtain ⟨val, hs, hd⟩ := hr
  obtain ⟨_, _, e⟩ := (packed_iff h.size').1 hd
  obtain ⟨val2, hv, hs⟩ := h.solution hs
  refine ⟨_, e, val2, hs, ?_⟩
  rw [e] at hd
  refine h.sub.packed h.size h.size' (fun s hs => ?_) hd
  rw [← h.deriv s hs]
  cases e : cfg.deriv s with
  | none => rfl
  | some d => exact hv d (h.slope s hs d e)

theorem Contains.step (h : Contains κ C cfg cfg' V V') {st : Stepper K} (hst : st ∈ [euler, rk4]) {y : List K} {q : K} (hs : (st t ((slots V').map g) u).By (Rhs cfg' V' mem) (y, q)) :
    ∃ f, y = (slots V').map f ∧ (st t ((slots V).map g) u).By (Rhs cfg V (κ mem)) ((slots V).map f, q) := by
  simp only [List.mem_cons, List.not_mem_nil, or_false] at hst
  rcases hst with rfl | rfl
  · obtain ⟨d1, h1, e⟩ := hs
    obtain ⟨f1, rfl, k1⟩ := h.rhs h1
    have e : (y, q) = (vadd ((slots V').map g) (vsmul (u -. t) ((slots V').map f1)), u -. t) := e
    rw [vsmul_slots, vadd_slots] at e
    refine ⟨_, congrArg Prod.fst e, _, k1, ?_⟩
    show _ = (vadd ((slots V).map g) (vsmul (u -. t) ((slots V).map f1)), u -. t)
    rw [vsmul_slots, vadd_slots, show q = u -. t from congrArg Prod.snd e]
  · obtain ⟨d1, h1, hs⟩ := hs
    obtain ⟨f1, rfl, k1⟩ := h.rhs h1
    obtain ⟨d2, h2, hs⟩ := hs
    rw [vsmul_slots, vadd_slots] at h2
    obtain ⟨f2, rfl, k2⟩ := h.rhs h2
    obtain ⟨d3, h3, hs⟩ := hs
    rw [vsmul_slots, vadd_slots] at h3
    obtain ⟨f3, rfl, k3⟩ := h.rhs h3
    obtain ⟨d4, h4, e⟩ := hs
    rw [vsmul_slots, vadd_slots] at h4
    obtain ⟨f4, rfl, k4⟩ := h.rhs h4
    simp only [vsmul_slots, vadd_slots] at e
    have e : (y, q) = _ := e
    refine ⟨_, congrArg Prod.fst e, _, k1, _, by rw [vsmul_slots, vadd_slots]; exact k2, _, by rw [vsmul_slots, vadd_slots]; exact k3, _, by rw [vsmul_slots, vadd_slots]; exact k4, ?_⟩
    simp only [vsmul_slots, vadd_slots]
    rw [show q = u -. t from congrArg Prod.snd e]
    rfl

/-- The smaller diagram passes through the times as it does in the larger one. -/
theorem Contains.passes [LT K] (h : Contains κ C cfg cfg' V V') (hst : cfg.stepper = cfg'.stepper ∨ V.scalars ++ V.arrays = []) (he : ∀ st, cfg'.stepper = some st → st ∈ [euler, rk4]) {a b : Snapshot K} {ts : List K}
    (hp : Passes cfg' V' a ts b) : ∀ {g v0}, a.state = (slots V').map g → (∀ s, C s → v0 s = a.vals s) → ∃ f v1, b.state = (slots V').map f ∧ (∀ s, C s → v1 s = b.vals s) ∧
      Passes cfg V ⟨κ a.mem, a.time, (slots V).map g, v0⟩ ts ⟨κ b.mem, b.time, (slots V).map f, v1⟩ := by
  induction hp with
  | nil => exact fun {g v0} e ev => ⟨g, v0, e, ev, .nil⟩
  | @steps a c b ts st steps k1 k2 k3 k4 k5 k6 ih =>
    intro g v0 e ev
    have hin := he _ k2
    have e1 := k4 hin
    subst e1
    rw [e] at k5
    cases k5 with
    | step _ _ _ _ q => cases q
    | last r1 r2 r3 r4 =>
      obtain ⟨f, e2, k7⟩ := h.step hin r3
      rw [e2] at r4
      obtain ⟨v2, ev2, r4⟩ := h.committed r4
      obtain ⟨f', v1, e3, ev3, k8⟩ := ih e2 ev2
      refine ⟨f', v1, e3, ev3, ?_⟩
      by_cases hV : V.scalars ++ V.arrays = []
      · exact .sample (b := ⟨κ c.mem, c.time, (slots V).map f, v2⟩) hV r4 k8
      · have hs : cfg.stepper = some st := (hst.resolve_right hV).trans k2
        exact .steps (b := ⟨κ c.mem, c.time, (slots V).map f, v2⟩) [(a.time, c.time)] hV hs k3 (fun _ => rfl) (.last r1 r2 k7 r4) k8
  | @sample a c b ts k1 k2 k3 ih =>
    intro g v0 e ev
    have e2 := ((packed_iff fun _ _ => rfl).1 k2.solution.state).2.2
    rw [e2] at k2
    obtain ⟨v2, ev2, k2⟩ := h.committed k2
    obtain ⟨f', v1, e3, ev3, k8⟩ := ih e2 ev2
    refine ⟨f', v1, e3, ev3, ?_⟩
    have hV : V.scalars ++ V.arrays = [] := by
      rw [List.append_eq_nil_iff] at k1 ⊢
      refine ⟨List.eq_nil_iff_forall_not_mem.2 fun s hs => ?_, List.eq_nil_iff_forall_not_mem.2 fun s hs => ?_⟩
      · have := h.sub.scalars s hs; rw [k1.1] at this; cases this
      · have := h.sub.arrays s hs; rw [k1.2] at this; cases this
    exact .sample (b := ⟨κ c.mem, c.time, (slots V).map (comp c.vals), v2⟩) hV k2 k8

/-- A step of any of the methods, apart from the proposed step size. -/
theorem Contains.trial (h : Contains κ C cfg cfg' V V') {st : Stepper K} (hst : st ∈ [euler, rk4, rkf45]) {y : List K} {q : K} (hs : (st t ((slots V').map g) u).By (Rhs cfg' V' mem) (y, q)) :
    ∃ f q', y = (slots V').map f ∧ (st t ((slots V).map g) u).By (Rhs cfg V (κ mem)) ((slots V).map f, q') := by
  simp only [List.mem_cons, List.not_mem_nil, or_false] at hst
  rcases hst with rfl | rfl | rfl
  · obtain ⟨f, e, k⟩ := h.step (by simp) hs
    exact ⟨f, q, e, k⟩
  · obtain ⟨f, e, k⟩ := h.step (by simp) hs
    exact ⟨f, q, e, k⟩
  · obtain ⟨d1, h1, hs⟩ := hs
    obtain ⟨f1, rfl, k1⟩ := h.rhs h1
    obtain ⟨d2, h2, hs⟩ := hs
    simp only [vsmul_slots, vadd_slots] at h2
    obtain ⟨f2, rfl, k2⟩ := h.rhs h2
    obtain ⟨d3, h3, hs⟩ := hs
    simp only [vsmul_slots, vadd_slots] at h3
    obtain ⟨f3, rfl, k3⟩ := h.rhs h3
    obtain ⟨d4, h4, hs⟩ := hs
    simp only [vsmul_slots, vadd_slots, vsub_slots] at h4
    obtain ⟨f4, rfl, k4⟩ := h.rhs h4
    obtain ⟨d5, h5, hs⟩ := hs
    simp only [vsmul_slots, vadd_slots, vsub_slots] at h5
    obtain ⟨f5, rfl, k5⟩ := h.rhs h5
    obtain ⟨d6, h6, e⟩ := hs
    simp only [vsmul_slots, vadd_slots, vsub_slots] at h6
    obtain ⟨f6, rfl, k6⟩ := h.rhs h6
    simp only [vsmul_slots, vadd_slots, vsub_slots] at e
    have e : (y, q) = _ := e
    obtain ⟨e1, -⟩ := Prod.mk.inj e
    suffices hr : ∃ r : List K × K, (rkf45 t ((slots V).map g) u).By (Rhs cfg V (κ mem)) r ∧ r.1 = (slots V).map (fun s => g s +. Arith.lit 2375 /. Arith.lit 20520 *. ((u -. t) *. f1 s) +.
        Arith.lit 11264 /. Arith.lit 20520 *. ((u -. t) *. f3 s) +. Arith.lit 10985 /. Arith.lit 20520 *. ((u -. t) *. f4 s) -. Arith.lit 4104 /. Arith.lit 20520 *. ((u -. t) *. f5 s)) by
      obtain ⟨⟨_, q'⟩, hr, rfl⟩ := hr
      exact ⟨_, q', e1, hr⟩
    refine ⟨(_, _), ⟨_, k1, (slots V).map f2, ?_, (slots V).map f3, ?_, (slots V).map f4, ?_, (slots V).map f5, ?_, (slots V).map f6, ?_, rfl⟩, ?_⟩
    iterate 5 (simp only [vsmul_slots, vadd_slots, vsub_slots]; assumption)
    simp only [vsmul_slots, vadd_slots, vsub_slots]

theorem Contains.evolves (h : Contains κ C cfg cfg' V V') {st : Stepper K} (hst : st ∈ [euler, rk4, rkf45]) {a : K} {y : List K} {steps : List (K × K)}
    (he : Evolves cfg' V' st u mem a x steps y val mem') : ∀ {g}, x = (slots V').map g →
      ∃ f v1, y = (slots V').map f ∧ (∀ s, C s → v1 s = val s) ∧ Evolves cfg V st u (κ mem) a ((slots V).map g) steps ((slots V).map f) v1 (κ mem') := by
  induction he with
  | last r1 r2 r3 r4 =>
    rintro g rfl
    obtain ⟨f, q, rfl, k⟩ := h.trial hst r3
    obtain ⟨v1, ev, r4⟩ := h.committed r4
    exact ⟨f, v1, rfl, ev, .last r1 r2 k r4⟩
  | step r1 r2 r3 r4 _ ih =>
    rintro g rfl
    obtain ⟨f, q, rfl, k⟩ := h.trial hst r3
    obtain ⟨_, _, r4⟩ := h.committed r4
    obtain ⟨f', v1, e, ev, k'⟩ := ih rfl
    exact ⟨f', v1, e, ev, .step r1 r2 k r4 k'⟩

/-- With any of the methods, the smaller diagram passes through the times with the steps of the larger one. -/
theorem Contains.follows [LT K] (h : Contains κ C cfg cfg' V V') (hst : cfg.stepper = cfg'.stepper) (hV : V.scalars ++ V.arrays ≠ []) (he : ∀ st, cfg'.stepper = some st → st ∈ [euler, rk4, rkf45])
    {a b : Snapshot K} {ts : List K} (hp : Passes cfg' V' a ts b) : ∀ {g v0}, a.state = (slots V').map g → (∀ s, C s → v0 s = a.vals s) → ∃ f v1, b.state = (slots V').map f ∧
      (∀ s, C s → v1 s = b.vals s) ∧ Passes cfg V ⟨κ a.mem, a.time, (slots V).map g, v0⟩ ts ⟨κ b.mem, b.time, (slots V).map f, v1⟩ := by
  induction hp with
  | nil => exact fun {g v0} e ev => ⟨g, v0, e, ev, .nil⟩
  | @steps a c b ts st steps k1 k2 k3 k4 k5 k6 ih =>
    intro g v0 e ev
    rw [e] at k5
    obtain ⟨f, v2, e2, ev2, k7⟩ := h.evolves (he _ k2) k5 rfl
    obtain ⟨f', v1, e3, ev3, k8⟩ := ih e2 ev2
    exact ⟨f', v1, e3, ev3, .steps (b := ⟨κ c.mem, c.time, (slots V).map f, v2⟩) steps hV (hst.trans k2) k3 k4 k7 k8⟩
  | @sample a c b ts k1 k2 k3 ih =>
    refine (hV ?_).elim
    rw [List.append_eq_nil_iff] at k1 ⊢
    refine ⟨List.eq_nil_iff_forall_not_mem.2 fun s hs => ?_, List.eq_nil_iff_forall_not_mem.2 fun s hs => ?_⟩
    · have := h.sub.scalars s hs; rw [k1.1] at this; cases this
    · have := h.sub.arrays s hs; rw [k1.2] at this; cases this

end Pooya.Within
