import Verif.Props.C36
import Verif.Proof.TiedInit
import Verif.Proof.StepRel

/-! C30: state packing is lossless. -/

namespace Pooya

set_option linter.unusedSectionVars false

variable {K : Type} [Arith K]

/-- In every initialised simulator, any vector of the right size can be written to the state signals, and reading them gives it back. -/
theorem C30_roundtrip (cfg : Config K) (hh : ∀ l, (cfg.hash l).Perm l) (hdim : ∀ st, cfg.stepper = some st → Stepper.Dim st)
    {m : Machine K} (hm : Once cfg m) (hi : m.s.initialized = true) (x : List K) (hx : x.length = m.s.nState) :
    ∃ m', resetWith cfg x m = .ok () m' ∧ getStates cfg m' = .ok x m' ∧ m'.s = m.s := by
  have hr := once_ready hdim hm hi
  have hst := hr.layout.statesOk hh
  have hxl : x.length = slots m.w.size m.s.scalarStates m.s.arrayStates := by rw [hx, hst.slots]
  obtain ⟨m', h⟩ := resetWith_succ (cfg := cfg) hst.nodup hst.linked hst.scalar hst.array hxl
  obtain ⟨r, e⟩ := hr.reset h
  obtain ⟨g1, g2, _⟩ := resetWith_holds hst.nodup hxl h
  refine ⟨m', h, getStates_of g1 ?_ ?_, e⟩
  · rw [hx, ← hr.sized.1, e]
  · rw [e]; exact g2

/-- No overlap: the state signals are distinct and linked, a scalar takes one component and an array as many as its size, and together
they take the whole vector. -/
theorem C30_slots (cfg : Config K) (hh : ∀ l, (cfg.hash l).Perm l) (hdim : ∀ st, cfg.stepper = some st → Stepper.Dim st)
    {m : Machine K} (hm : Once cfg m) (hi : m.s.initialized = true) :
    (m.s.scalarStates ++ m.s.arrayStates).Nodup ∧ m.s.nState = slots m.w.size m.s.scalarStates m.s.arrayStates ∧
      (∀ s ∈ m.s.scalarStates, (m.w.sig s).ty = .scalar) ∧ (∀ s ∈ m.s.arrayStates, (m.w.sig s).ty.isArray = true) ∧
      ∀ (x : List K) (m' : Machine K), x.length = m.s.nState → resetWith cfg x m = .ok () m' →
        (∀ (i : Nat) (s : SigId), m.s.scalarStates[i]? = some s → (m'.w.sig s).value = x[i]?.map Val.scalar) ∧
        (∀ (i : Nat) (s : SigId), m.s.arrayStates[i]? = some s → (m'.w.sig s).value =
          some (.array ((x.drop (slots m.w.size m.s.scalarStates (m.s.arrayStates.take i))).take (m.w.size s)))) := by
  have hr := once_ready hdim hm hi
  have hst := hr.layout.statesOk hh
  refine ⟨hst.nodup, hst.slots, hst.scalar, hst.array, fun x m' hx h => ?_⟩
  obtain ⟨r, e⟩ := hr.reset h
  obtain ⟨g1, _, _, _, g5⟩ := resetWith_holds hst.nodup (by rw [hx, hst.slots]) h
  unfold Machine.holds at g1
  rw [e] at g1
  obtain ⟨a, b, h1, h2, rfl⟩ := g1
  have hsz : m'.w.size = m.w.size := by funext s; show (m'.w.sig s).ty.size = (m.w.sig s).ty.size; rw [g5]
  rw [hsz] at h2
  constructor
  · intro i s hs
    obtain ⟨hi, e⟩ := List.getElem?_eq_some_iff.1 hs
    have hl := h1.length_eq
    have := (List.forall₂_iff_get.1 h1).2 i hi (by omega)
    rw [List.getElem?_append_left (by omega), List.getElem?_eq_getElem (by omega)]
    simp only [List.get_eq_getElem, e] at this
    exact this
  · intro i s hs
    have key : ∀ {sa : List SigId} {b : List (List K)}, List.Forall₂ (fun s v => m'.w.val s = some (.array v) ∧ v.length = m.w.size s) sa b →
        ∀ i, sa[i]? = some s → m'.w.val s = some (.array ((b.flatten.drop ((sa.take i).map m.w.size).sum).take (m.w.size s))) := by
      intro sa b h2
      induction h2 with
      | nil => intro i h; simp at h
      | @cons s' v sa b h3 _ ih =>
        intro i h
        cases i with
        | zero =>
          simp at h; subst h
          simp only [List.take_zero, List.map_nil, List.sum_nil, List.drop_zero, List.flatten_cons]
          rw [List.take_append_of_le_length (by omega), List.take_of_length_le (by omega)]
          exact h3.1
        | succ i =>
          simp only [List.getElem?_cons_succ] at h
          rw [ih i h]
          simp only [List.take_succ_cons, List.map_cons, List.sum_cons, List.flatten_cons]
          rw [List.drop_append (l₁ := v), List.drop_of_length_le (l := v) (by omega), List.nil_append, h3.2, Nat.add_sub_cancel_left]
    have := key h2 i hs
    have hl := h1.length_eq
    unfold slots
    rw [List.drop_append, List.drop_of_length_le (by omega), List.nil_append, hl, Nat.add_sub_cancel_left]
    exact this

/-- Order-independence: with any two iteration orders of the hash tables, and any sequence of calls `init`, `run`, …, `run`, both simulations of a
well-formed model throw, or both return and agree on all signals, block members, the time and the state variables; a `FastSimulator` must accept
the model. -/
theorem C30_trajectory (cfg : Config K) (hs : cfg.Sound) (hf : cfg.strategy = .fast → cfg.Steady) (hash2 : List SigId → List SigId)
    (hh : ∀ l, (hash2 l).Perm l) (w : World K) (t t0 : K) (hw : Startable cfg cfg w)
    (hacc : cfg.strategy = .fast → (∃ m', simInit cfg t0 (fresh w t) = .ok () m') ∧ ∃ m', simInit { cfg with hash := hash2 } t0 (fresh w t) = .ok () m')
    (as : List (RunArgs K)) : SameOutcome (simulate cfg t0 as (fresh w t)) (simulate { cfg with hash := hash2 } t0 as (fresh w t)) :=
  simulate_same (c1 := cfg) (c2 := { cfg with hash := hash2 }) ⟨⟨rfl, .refl _, fun _ => .rfl, rfl, rfl, rfl, rfl⟩, hs,
      hs.with _ hh, fun e => hf (by simpa using e)⟩ ⟨hw.done, hw.typed, hw.states, hw.quiet⟩
    (fun e => (hacc e).1) (fun e => (hacc e).2) as

namespace C30

/-- Two integrators: signal 2 is a scalar state, signal 4 an array state of size 3. -/
def model : Block ℚ := .sub 100 [] [.leaf Demo.integ, .leaf { id := 5, links := [(5, Demo.inp), (4, Demo.st)], kind := .integrator 5 4 },
  .leaf { id := 6, links := [(3, Demo.ot)], kind := .const (.scalar 1) 3 },
  .leaf { id := 7, links := [(5, Demo.ot)], kind := .const (.array [1, 2, 3]) 5 }]

def world : World ℚ where
  sig s := if s = 4 ∨ s = 5 then { ty := .array 3 } else { ty := .scalar }
  mem b := if b = 5 then { value := .array [7, 8, 9] } else { value := .scalar 5 }
  done _ := false
  log := []

def cfg (st : Strategy) : Config ℚ := { Demo.cfg st with
  model := model
  deriv := fun s => if s = 2 then some 3 else if s = 4 then some 5 else none
  hash := List.reverse }

def start : Machine ℚ := { w := world, s := { tPrev := 0 } }
def ready (st : Strategy) : Machine ℚ := stateOf (Call.exec (cfg st) (.init 0) start)

/-- The hypotheses of `C30_roundtrip` and `C30_slots`; writing `[1, 2, 3, 4]` gives the scalar 1 and the array `[2, 3, 4]`. -/
example (st : Strategy) : (∀ l, ((cfg st).hash l).Perm l) ∧ (∀ s, (cfg st).stepper = some s → Stepper.Dim s) ∧ Once (cfg st) (ready st) ∧
    (ready st).s.initialized = true ∧ [1, 2, 3, 4].length = (ready st).s.nState ∧
    (stateOf (resetWith (cfg st) [1, 2, 3, 4] (ready st))).value 2 = some (.scalar 1) ∧
    (stateOf (resetWith (cfg st) [1, 2, 3, 4] (ready st))).value 4 = some (.array [2, 3, 4]) := by
  refine ⟨fun l => l.reverse_perm, C36.dim st, .call _ (.new _ _ (fun _ => rfl) rfl) (fun _ _ => rfl), ?_, ?_, ?_, ?_⟩ <;>
    (cases st <;> decide +kernel)

theorem leaves_eq (st : Strategy) : (cfg st).model.leaves = [Demo.integ, { id := 5, links := [(5, Demo.inp), (4, Demo.st)], kind := .integrator 5 4 },
    { id := 6, links := [(3, Demo.ot)], kind := .const (.scalar 1) 3 }, { id := 7, links := [(5, Demo.ot)], kind := .const (.array [1, 2, 3]) 5 }] := by
  simp [cfg, model, Block.leaves, leavesL]

theorem sound (st : Strategy) : (cfg st).Sound := by
  have hk : ∀ t, (cfg st).inputKeys t = [] := fun t => rfl
  have hlink : ∀ l ∈ (cfg st).model.leaves, ∀ s ∈ l.outs ++ l.preOuts, ∃ f, (s, f) ∈ l.links := by
    have : ∀ l ∈ (cfg st).model.leaves, ∀ s ∈ l.outs ++ l.preOuts, s ∈ l.links.map Prod.fst := by rw [leaves_eq]; decide +kernel
    intro l hl s hs
    obtain ⟨⟨s', f⟩, h1, rfl⟩ := List.mem_map.1 (this l hl s hs)
    exact ⟨f, h1⟩
  have ha : ∀ l ∈ (cfg st).model.leaves, Block.leaf l ∈ (cfg st).model.all := fun l hl => (leaf_mem_all _ l).1 hl
  refine ⟨rfl, by show model.ids.Nodup; decide +kernel, ⟨?_, ?_, ?_⟩, ⟨?_, ?_, ?_, ?_, ?_, ?_, ?_, ?_, ?_, ?_, ?_, ?_, ?_⟩, fun l => l.reverse_perm, ?_, ?_⟩
  · rw [leaves_eq]; decide +kernel
  · rw [leaves_eq]; decide +kernel
  · rw [leaves_eq]
    intro l hl s hs
    simp only [List.mem_cons, List.not_mem_nil, or_false] at hl
    rcases hl with rfl | rfl | rfl | rfl <;> exact (List.not_mem_nil hs).elim
  · rw [leaves_eq]; decide +kernel
  · rw [leaves_eq]; decide +kernel
  · intro t; rw [hk]; exact List.nodup_nil
  · rw [leaves_eq]; decide +kernel
  · rw [leaves_eq]; decide +kernel
  · rw [leaves_eq]; decide +kernel
  · rw [leaves_eq]
    show ∀ l ∈ _, ∀ s ∈ _, (if s = 2 then some 3 else if s = 4 then some 5 else none : Option SigId) = none
    decide +kernel
  · intro l _ s _ t; rw [hk]; simp
  · intro l _ s _ t; rw [hk]; simp
  · intro s _ t; rw [hk]; simp
  · exact fun l hl s hs => ⟨.leaf l, ha l hl, hlink l hl s (by simp [hs])⟩
  · exact fun l hl s hs => ⟨.leaf l, ha l hl, hlink l hl s (by simp [hs])⟩
  · intro t s hs; rw [hk] at hs; cases hs
  · rw [leaves_eq]
    intro l hl
    simp only [List.mem_cons, List.not_mem_nil, or_false] at hl
    rcases hl with rfl | rfl | rfl | rfl <;> simp [Demo.integ]
  · rintro _ ⟨⟩ idx _ t0 t1 v v' h
    exact euler_rel t0 t1 h

/-- The hypotheses of `C30_trajectory`, for all kinds of simulators; here the iteration order decides about the layout of the state vector. -/
example (st : Strategy) : (cfg st).Sound ∧ (cfg st).Steady ∧ Startable (cfg st) (cfg st) world ∧
    returns (simInit (cfg st) 0 (fresh world 0)) = true ∧ returns (simInit { cfg st with hash := id } 0 (fresh world 0)) = true ∧
    returns (simulate (cfg st) 0 [⟨100, 1, 1/10, 10⟩] (fresh world 0)) = true := by
  refine ⟨sound st, ⟨fun _ _ => rfl, ?_, ?_⟩, ⟨fun _ => rfl, ⟨?_, ?_⟩, fun _ => ?_, fun _ => ?_⟩, ?_, ?_, ?_⟩
  · rw [leaves_eq]
    intro l hl
    simp only [List.mem_cons, List.not_mem_nil, or_false] at hl
    rcases hl with rfl | rfl | rfl | rfl <;> exact assigns_library _ (by simp [Demo.integ])
  · rw [leaves_eq]
    show ∀ l ∈ _, ∀ s ∈ _, _ ∧ ((if s = 2 then some 3 else if s = 4 then some 5 else none : Option SigId).isSome = true)
    decide +kernel
  · intro s _
    show (world.sig s).ty = .scalar ∨ _
    simp only [world]; split
    · exact .inr rfl
    · exact .inl rfl
  · intro s d hs
    have hs : (if s = 2 then some 3 else if s = 4 then some 5 else none : Option SigId) = some d := hs
    split at hs
    · cases hs; subst_vars; rfl
    · split at hs
      · cases hs; subst_vars; rfl
      · cases hs
  · cases st <;> decide +kernel
  · rw [leaves_eq]
    intro l hl
    simp only [List.mem_cons, List.not_mem_nil, or_false] at hl
    rcases hl with rfl | rfl | rfl | rfl <;> simp [Leaf.Quiet, Demo.integ]
  all_goals (cases st <;> decide +kernel)

end C30
end Pooya
