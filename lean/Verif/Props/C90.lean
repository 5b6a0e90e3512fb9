import Verif.Spec.Machine
import Verif.Props.C70
import Verif.Props.C85

/-! # C90 — Memory blocks make a diagram a machine with discrete time

Full statement: *if the inputs of some Memory blocks are computed from the time and from their own outputs, then after init(t0) and any sequence of runs each block shows what the
machine, applied once for each of the times before the last one to the initial values of the blocks, holds.  In particular n Memory blocks one behind the other delay a signal by n
runs; a Memory block with the sum of its output and a signal as input adds up the signal; with a weighted mean as input it stays between the least and the greatest value, and gets to
a constant signal geometrically* — in every arithmetic and for values of all types as far as no sums are concerned, for all closed diagrams without TriggeredIntegrators, which may also
contain other Memory blocks and Integrators, without stepper or with Euler or Rk4 (Rkf45 may end steps in between, at each of which the machine goes on).

Proved: `C90_machine` (the machine), `C90_chain` (shift register), `C90_sum`, `C90_filter`. -/

namespace Pooya.C90

open Pooya C60 C69 C85

set_option linter.unusedSectionVars false

section
variable {K : Type} [Arith K]
attribute [local instance] Arith.before

variable {cfg : Config K} {ps : List (Wire K)} {ty : SigId → Ty} {rank : BlkId → Nat} {V : Vars} {qs : List (BlkId × SigId × SigId)} {Ok : List (Val K) → Prop} {g : K → List (Val K) → List (Val K)}

/-- One step of the machine. -/
theorem commit (h : cfg.Sealed ps ty rank) (hg : Recurs cfg ps qs Ok g) (hV : ∀ s, s ∈ V.scalars ++ V.arrays ↔ ∃ p ∈ ps, p.obj.isState = true ∧ p.Gives s)
    {mem mem' : BlkId → Mem K} {t : K} {x : List K} {val : SigId → Option (Val K)} (hc : Committed cfg V mem t x val mem') (hok : Ok (qs.map fun q => (mem q.1).value)) :
    Shows val (qs.map fun q => q.2.2) (qs.map fun q => (mem q.1).value) ∧ Shows val (qs.map fun q => q.2.1) (g t (qs.map fun q => (mem q.1).value)) ∧
      (qs.map fun q => (mem' q.1).value) = g t (qs.map fun q => (mem q.1).value) := by
  have h1 : Shows val (qs.map fun q => q.2.2) (qs.map fun q => (mem q.1).value) := by
    unfold Shows
    rw [List.forall₂_map_left_iff, List.forall₂_map_right_iff]
    refine List.forall₂_same.2 fun q hq => ?_
    obtain ⟨l, hl, e1, e2⟩ := hg.blocks q hq
    have := all_solved h hV hc.solution l hl
    unfold Leaf.Solved at this
    rw [e2, e1] at this
    exact this
  have h2 := hg.next V mem t x val _ hV hc.solution hok h1
  refine ⟨h1, h2, ?_⟩
  have h3 : Shows val (qs.map fun q => q.2.1) (qs.map fun q => (mem' q.1).value) := by
    unfold Shows
    rw [List.forall₂_map_left_iff, List.forall₂_map_right_iff]
    refine List.forall₂_same.2 fun q hq => ?_
    obtain ⟨l, hl, e1, e2⟩ := hg.blocks q hq
    have := hc.stored l hl
    unfold Leaf.Stored at this
    rw [e2, e1] at this
    obtain ⟨v, k1, k2⟩ := this
    rw [k1, k2]
  have uniq : ∀ {ss : List SigId} {a b : List (Val K)}, Shows val ss a → Shows val ss b → a = b := by
    intro ss a b ha
    induction ha generalizing b with
    | nil => intro hb; cases hb; rfl
    | cons e _ ih =>
      intro hb
      cases hb with
      | cons e' hb' =>
        rw [e] at e'
        cases e'
        rw [ih hb']
  exact uniq h3 h2

theorem single {st : Stepper K} {t s u : K} {mem mem' : BlkId → Mem K} {x y : List K} {val : SigId → Option (Val K)} (h : Evolves cfg V st t mem s x [(s, u)] y val mem') :
    Committed cfg V mem t y val mem' := by
  cases h with
  | last _ _ _ h => exact h
  | step _ _ _ _ h => cases h

/-- The machine on its way through times. -/
theorem carry (h : cfg.Sealed ps ty rank) (he : ∀ st, cfg.stepper = some st → st ∈ [euler, rk4]) (hg : Recurs cfg ps qs Ok g)
    (hV : ∀ s, s ∈ V.scalars ++ V.arrays ↔ ∃ p ∈ ps, p.obj.isState = true ∧ p.Gives s) {a b : Snapshot K} {ts : List K} (hp : Passes cfg V a ts b) (z : List (Val K)) (hz : Ok z)
    (h1 : Shows a.vals (qs.map fun q => q.2.2) z) (h2 : Shows a.vals (qs.map fun q => q.2.1) (g a.time z)) (h3 : (qs.map fun q => (a.mem q.1).value) = g a.time z) :
    Shows b.vals (qs.map fun q => q.2.2) (after g z (a.time :: ts).dropLast) ∧ Shows b.vals (qs.map fun q => q.2.1) (after g z (a.time :: ts)) := by
  induction hp generalizing z with
  | nil => exact ⟨h1, h2⟩
  | @steps a b c ts st steps k1 k2 k3 k4 k5 k6 ih =>
    obtain ⟨c1, c2, c3⟩ := commit h hg hV (single (k4 (he st k2) ▸ k5)) (h3 ▸ hg.stays _ _ hz)
    rw [h3] at c1 c2 c3
    exact ih _ (hg.stays _ _ hz) c1 c2 c3
  | @sample a b c ts k1 k2 k3 ih =>
    obtain ⟨c1, c2, c3⟩ := commit h hg hV k2 (h3 ▸ hg.stays _ _ hz)
    rw [h3] at c1 c2 c3
    exact ih _ (hg.stays _ _ hz) c1 c2 c3

/-- C90: in every arithmetic, after `init(t0)` and runs for times that follow each other, the `Memory` blocks show what the machine holds after all times but the last one, and their
inputs what it holds after all times. -/
theorem C90_machine (cfg : Config K) (ps : List (Wire K)) (ty : SigId → Ty) (rank : BlkId → Nat) (h : cfg.Sealed ps ty rank)
    (hme : ∀ p ∈ ps, p.obj.Plain) (he : ∀ st, cfg.stepper = some st → st ∈ [euler, rk4]) (ho : cfg.Delays → OrderedArith K)
    (qs : List (BlkId × SigId × SigId)) (Ok : List (Val K) → Prop) (g : K → List (Val K) → List (Val K)) (hg : Recurs cfg ps qs Ok g)
    (w : World K) (hw : w.New cfg ty) (hlog : w.log = []) (hz : Ok (qs.map fun q => (w.mem q.1).value)) (tPrev t0 minH maxH : K) (h0 : (Arith.lit 0 <. minH) = true)
    (h1 : (minH <. maxH) = true) :
    ∃ m0 : Machine K, Call.exec cfg (.init t0) { w := w, s := { tPrev := tPrev } } = .ok () m0 ∧ ∀ ts : List K, (t0 :: ts).IsChain Later →
      (∃ m, RunsTo cfg minH maxH m0 ts m) ∧ ∀ m, RunsTo cfg minH maxH m0 ts m →
        Shows m.w.shown (qs.map fun q => q.2.2) (after g (qs.map fun q => (w.mem q.1).value) (t0 :: ts).dropLast) ∧
        Shows m.w.shown (qs.map fun q => q.2.1) (after g (qs.map fun q => (w.mem q.1).value) (t0 :: ts)) := by
  obtain ⟨m0, V, x0, q1, q2, q3, q4, q5, q6, q7⟩ := C70.C70_single cfg ps ty rank h hme he ho w hw hlog tPrev t0 minH maxH h0 h1
  refine ⟨m0, q1, fun ts hts => ⟨(q7 ts hts).1, fun m hm => ?_⟩⟩
  obtain ⟨y, hp⟩ := (q7 ts hts).2 m hm
  obtain ⟨c1, c2, c3⟩ := commit h hg q3 q6 hz
  exact carry h he hg q3 hp _ hz c1 c2 c3

/-! ## Shift registers -/

/-- The blocks are one behind the other, beginning with the signal `s`. -/
def Chained : SigId → List (BlkId × SigId × SigId) → Prop
  | _, [] => True
  | s, q :: qs => q.2.1 = s ∧ Chained q.2.2 qs

theorem chained_ins {s : SigId} {qs : List (BlkId × SigId × SigId)} (h : Chained s qs) : (qs.map fun q => q.2.1) = (s :: qs.map fun q => q.2.2).take qs.length := by
  induction qs generalizing s with
  | nil => rfl
  | cons q qs ih =>
    rw [List.map_cons, List.map_cons, List.length_cons, List.take_succ_cons, h.1, ih h.2]

theorem shift_after (f : K → Val K) (n : Nat) (z : List (Val K)) (hz : z.length = n) (ts : List K) :
    after (fun t z => (f t :: z).take n) z ts = (ts.reverse.map f ++ z).take n := by
  induction ts generalizing z with
  | nil => simp [after, ← hz]
  | cons t ts ih =>
    show after _ ((f t :: z).take n) ts = _
    rw [ih _ (by simp [hz]), List.reverse_cons, List.map_append, List.append_assoc]
    show _ = List.take n (ts.reverse.map f ++ (f t :: z))
    rw [List.take_append, List.take_append, List.take_take]
    congr 2
    omega

theorem shows_take {val : SigId → Option (Val K)} {ss : List SigId} {vs : List (Val K)} (h : Shows val ss vs) (n : Nat) : Shows val (ss.take n) (vs.take n) := by
  induction h generalizing n with
  | nil => simp [Shows]
  | cons e _ ih =>
    cases n with
    | zero => exact .nil
    | succ n => exact .cons e (ih n)

/-- C90, shift registers: `Memory` blocks one behind the other, the first one behind a signal that is the function `f` of time.  After `k` runs they show the values of `f` at the
time before the last one, at the time before that, and so on, and then the initial values of the blocks, the `i`-th block that of the block `k` places before it. -/
theorem C90_chain (cfg : Config K) (ps : List (Wire K)) (ty : SigId → Ty) (rank : BlkId → Nat) (h : cfg.Sealed ps ty rank)
    (hme : ∀ p ∈ ps, p.obj.Plain) (he : ∀ st, cfg.stepper = some st → st ∈ [euler, rk4]) (ho : cfg.Delays → OrderedArith K)
    (qs : List (BlkId × SigId × SigId)) (hq : ∀ q ∈ qs, ∃ l ∈ cfg.model.leaves, l.id = q.1 ∧ l.kind = .memory q.2.1 q.2.2) (s : SigId) (hs : Chained s qs)
    (f : K → Val K) (hf : Clocked cfg ps s f)
    (w : World K) (hw : w.New cfg ty) (hlog : w.log = []) (tPrev t0 minH maxH : K) (h0 : (Arith.lit 0 <. minH) = true) (h1 : (minH <. maxH) = true) :
    ∃ m0 : Machine K, Call.exec cfg (.init t0) { w := w, s := { tPrev := tPrev } } = .ok () m0 ∧ ∀ ts : List K, (t0 :: ts).IsChain Later →
      (∃ m, RunsTo cfg minH maxH m0 ts m) ∧ ∀ m, RunsTo cfg minH maxH m0 ts m → ∀ i q, qs[i]? = some q →
        m.w.shown q.2.2 = if i < ts.length then ((t0 :: ts)[ts.length - 1 - i]?).map f else (qs[i - ts.length]?).map fun q' => (w.mem q'.1).value := by
  have hg : Recurs cfg ps qs (fun _ => True) (fun t z => (f t :: z).take qs.length) := ⟨hq, fun V mem t x val z hV hsol _ hz => by
    rw [chained_ins hs]
    exact shows_take (.cons (hf V mem t x val hV hsol) hz) _, fun _ _ _ => trivial⟩
  obtain ⟨m0, e1, e2⟩ := C90_machine cfg ps ty rank h hme he ho qs _ _ hg w hw hlog trivial tPrev t0 minH maxH h0 h1
  refine ⟨m0, e1, fun ts hts => ⟨(e2 ts hts).1, fun m hm i q hi => ?_⟩⟩
  have k := ((e2 ts hts).2 m hm).1
  rw [shift_after f qs.length _ (by simp)] at k
  have hlen : i < qs.length := (List.getElem?_eq_some_iff.1 hi).1
  have key : (((t0 :: ts).dropLast.reverse.map f ++ qs.map fun q => (w.mem q.1).value).take qs.length)[i]? = m.w.shown q.2.2 := by
    have : ∀ {ss : List SigId} {vs : List (Val K)}, Shows m.w.shown ss vs → ∀ (i : Nat) (o : SigId), ss[i]? = some o → vs[i]? = m.w.shown o := by
      intro ss vs hv
      induction hv with
      | nil => intro i o e; simp at e
      | cons e _ ih =>
        intro i o ho
        cases i with
        | zero => cases ho; exact e.symm
        | succ i => exact ih i o ho
    exact this k i q.2.2 (by rw [List.getElem?_map, hi]; rfl)
  rw [← key, List.getElem?_take_of_lt hlen]
  split
  · rename_i hlt
    rw [List.getElem?_append_left (by simpa using hlt), List.getElem?_map, List.getElem?_reverse (by simpa using hlt), List.getElem?_dropLast]
    simp only [List.length_dropLast, List.length_cons, Nat.add_sub_cancel]
    rw [if_pos (by omega)]
  · rename_i hge
    rw [List.getElem?_append_right (by simpa using hge), List.getElem?_map]
    simp

end

section
variable {F : Type} [_root_.Field F] [LinearOrder F] [IsStrictOrderedRing F]
attribute [local instance] Arith.exact

theorem later_exact {s t : F} (h : s < t) : Later s t where
  lt := decide_eq_true h
  back := decide_eq_false h.not_gt
  ne := decide_eq_false h.ne'
  self := decide_eq_false (lt_irrefl _)
  length := decide_eq_true (le_refl _)

/-- A single block whose input is a function of the time and of its output, in exact arithmetic. -/
theorem one (cfg : Config F) (ps : List (Wire F)) (ty : SigId → Ty) (rank : BlkId → Nat) (h : cfg.Sealed ps ty rank)
    (hme : ∀ p ∈ ps, p.obj.Plain) (he : ∀ st, cfg.stepper = some st → st ∈ [euler, rk4])
    (l : Leaf F) (hl : l ∈ cfg.model.leaves) (x o : SigId) (hk : l.kind = .memory x o) (φ : F → F → F)
    (hφ : ∀ (V : Vars) (mem : BlkId → Mem F) (t : F) (y : List F) (val : SigId → Option (Val F)) (z : F),
      (∀ s, s ∈ V.scalars ++ V.arrays ↔ ∃ p ∈ ps, p.obj.isState = true ∧ p.Gives s) → Solution cfg V mem t y val → val o = some (.scalar z) → val x = some (.scalar (φ t z)))
    (w : World F) (hw : w.New cfg ty) (hlog : w.log = []) (z0 : F) (hz : (w.mem l.id).value = .scalar z0) (tPrev t0 minH maxH : F) (h0 : 0 < minH) (h1 : minH < maxH) :
    ∃ m0 : Machine F, Call.exec cfg (.init t0) { w := w, s := { tPrev := tPrev } } = .ok () m0 ∧ ∀ ts : List F, (t0 :: ts).Pairwise (· < ·) →
      (∃ m, RunsTo cfg minH maxH m0 ts m) ∧ ∀ m, RunsTo cfg minH maxH m0 ts m →
        m.w.shown o = some (.scalar ((t0 :: ts).dropLast.foldl (fun z t => φ t z) z0)) ∧ m.w.shown x = some (.scalar ((t0 :: ts).foldl (fun z t => φ t z) z0)) := by
  let g : F → List (Val F) → List (Val F) := fun t z => match z with
    | [.scalar a] => [.scalar (φ t a)]
    | _ => []
  have hg : Recurs cfg ps [(l.id, x, o)] (fun z => ∃ a, z = [.scalar a]) g := {
    blocks := by
      intro q hq
      rw [List.mem_singleton] at hq
      subst hq
      exact ⟨l, hl, rfl, hk⟩
    next := by
      rintro V mem t y val _ hV hs ⟨a, rfl⟩ hz
      cases hz with
      | cons e _ => exact .cons (hφ V mem t y val a hV hs e) .nil
    stays := by
      rintro t _ ⟨a, rfl⟩
      exact ⟨_, rfl⟩ }
  have ha : ∀ (ts : List F) (a : F), after g [.scalar a] ts = [.scalar (ts.foldl (fun z t => φ t z) a)] := by
    intro ts
    induction ts with
    | nil => intro a; rfl
    | cons t ts ih => intro a; exact ih (φ t a)
  obtain ⟨m0, e1, e2⟩ := C90_machine cfg ps ty rank h hme he (fun _ => C57.ordered_exact) _ _ g hg w hw hlog ⟨z0, by simp [hz]⟩ tPrev t0 minH maxH
    (decide_eq_true (by simpa using h0)) (decide_eq_true h1)
  refine ⟨m0, e1, fun ts hts => ?_⟩
  have hts' : (t0 :: ts).IsChain Later := hts.isChain.imp fun _ _ => later_exact
  refine ⟨(e2 ts hts').1, fun m hm => ?_⟩
  obtain ⟨k1, k2⟩ := (e2 ts hts').2 m hm
  simp only [List.map_cons, List.map_nil, hz, ha] at k1 k2
  cases k1 with
  | cons k1 _ =>
    cases k2 with
    | cons k2 _ => exact ⟨k1, k2⟩

/-- C90, sums: a `Memory` block whose input is the sum of its output and a function `u` of time shows its initial value plus the sum of `u` at all times but the last one; its input is
the sum up to the last one. -/
theorem C90_sum (cfg : Config F) (ps : List (Wire F)) (ty : SigId → Ty) (rank : BlkId → Nat) (h : cfg.Sealed ps ty rank)
    (hme : ∀ p ∈ ps, p.obj.Plain) (he : ∀ st, cfg.stepper = some st → st ∈ [euler, rk4])
    (l : Leaf F) (hl : l ∈ cfg.model.leaves) (x o : SigId) (hk : l.kind = .memory x o) (u : F → F)
    (hφ : ∀ (V : Vars) (mem : BlkId → Mem F) (t : F) (y : List F) (val : SigId → Option (Val F)) (z : F),
      (∀ s, s ∈ V.scalars ++ V.arrays ↔ ∃ p ∈ ps, p.obj.isState = true ∧ p.Gives s) → Solution cfg V mem t y val → val o = some (.scalar z) → val x = some (.scalar (z + u t)))
    (w : World F) (hw : w.New cfg ty) (hlog : w.log = []) (z0 : F) (hz : (w.mem l.id).value = .scalar z0) (tPrev t0 minH maxH : F) (h0 : 0 < minH) (h1 : minH < maxH) :
    ∃ m0 : Machine F, Call.exec cfg (.init t0) { w := w, s := { tPrev := tPrev } } = .ok () m0 ∧ ∀ ts : List F, (t0 :: ts).Pairwise (· < ·) →
      (∃ m, RunsTo cfg minH maxH m0 ts m) ∧ ∀ m, RunsTo cfg minH maxH m0 ts m →
        m.w.shown o = some (.scalar (z0 + ((t0 :: ts).dropLast.map u).sum)) ∧ m.w.shown x = some (.scalar (z0 + ((t0 :: ts).map u).sum)) := by
  obtain ⟨m0, e1, e2⟩ := one cfg ps ty rank h hme he l hl x o hk (fun t z => z + u t) hφ w hw hlog z0 hz tPrev t0 minH maxH h0 h1
  have hf : ∀ (ts : List F) (a : F), ts.foldl (fun z t => z + u t) a = a + (ts.map u).sum := by
    intro ts
    induction ts with
    | nil => intro a; simp
    | cons t ts ih => intro a; rw [List.foldl_cons, ih, List.map_cons, List.sum_cons, add_assoc]
  refine ⟨m0, e1, fun ts hts => ⟨(e2 ts hts).1, fun m hm => ?_⟩⟩
  have := (e2 ts hts).2 m hm
  rwa [hf, hf] at this

/-- C90, filters: a `Memory` block whose input is a weighted mean of its output and a function `u` of time stays between bounds for `u` and the initial value; and if `u` is the
constant `c`, its distance to `c` is multiplied by the weight `a` at each run. -/
theorem C90_filter (cfg : Config F) (ps : List (Wire F)) (ty : SigId → Ty) (rank : BlkId → Nat) (h : cfg.Sealed ps ty rank)
    (hme : ∀ p ∈ ps, p.obj.Plain) (he : ∀ st, cfg.stepper = some st → st ∈ [euler, rk4])
    (l : Leaf F) (hl : l ∈ cfg.model.leaves) (x o : SigId) (hk : l.kind = .memory x o) (u : F → F) (a : F)
    (hφ : ∀ (V : Vars) (mem : BlkId → Mem F) (t : F) (y : List F) (val : SigId → Option (Val F)) (z : F),
      (∀ s, s ∈ V.scalars ++ V.arrays ↔ ∃ p ∈ ps, p.obj.isState = true ∧ p.Gives s) → Solution cfg V mem t y val → val o = some (.scalar z) →
        val x = some (.scalar (a * z + (1 - a) * u t)))
    (w : World F) (hw : w.New cfg ty) (hlog : w.log = []) (z0 : F) (hz : (w.mem l.id).value = .scalar z0) (tPrev t0 minH maxH : F) (h0 : 0 < minH) (h1 : minH < maxH) :
    ∃ m0 : Machine F, Call.exec cfg (.init t0) { w := w, s := { tPrev := tPrev } } = .ok () m0 ∧ ∀ ts : List F, (t0 :: ts).Pairwise (· < ·) →
      (∃ m, RunsTo cfg minH maxH m0 ts m) ∧ ∀ m, RunsTo cfg minH maxH m0 ts m → ∃ z, m.w.shown o = some (.scalar z) ∧
        (0 ≤ a → a ≤ 1 → ∀ lo hi, lo ≤ z0 → z0 ≤ hi → (∀ t ∈ t0 :: ts, lo ≤ u t ∧ u t ≤ hi) → lo ≤ z ∧ z ≤ hi) ∧
        ∀ c, (∀ t ∈ t0 :: ts, u t = c) → z - c = a ^ ts.length * (z0 - c) := by
  obtain ⟨m0, e1, e2⟩ := one cfg ps ty rank h hme he l hl x o hk (fun t z => a * z + (1 - a) * u t) hφ w hw hlog z0 hz tPrev t0 minH maxH h0 h1
  refine ⟨m0, e1, fun ts hts => ⟨(e2 ts hts).1, fun m hm => ⟨_, ((e2 ts hts).2 m hm).1, fun a0 a1 lo hi b1 b2 hu => ?_, fun c hu => ?_⟩⟩⟩
  · have hf : ∀ (ts : List F), (∀ t ∈ ts, lo ≤ u t ∧ u t ≤ hi) → ∀ z, lo ≤ z → z ≤ hi → lo ≤ ts.foldl (fun z t => a * z + (1 - a) * u t) z ∧
        ts.foldl (fun z t => a * z + (1 - a) * u t) z ≤ hi := by
      intro ts
      induction ts with
      | nil => intro _ z k1 k2; exact ⟨k1, k2⟩
      | cons t ts ih =>
        intro hu z k1 k2
        obtain ⟨u1, u2⟩ := hu t (.head _)
        have w := sub_nonneg.2 a1
        refine ih (fun t ht => hu t (.tail _ ht)) _ ?_ ?_
        · have := mul_le_mul_of_nonneg_left k1 a0
          have := mul_le_mul_of_nonneg_left u1 w
          linarith
        · have := mul_le_mul_of_nonneg_left k2 a0
          have := mul_le_mul_of_nonneg_left u2 w
          linarith
    exact hf _ (fun t ht => hu t (List.dropLast_subset _ ht)) z0 b1 b2
  · have hf : ∀ (ts : List F), (∀ t ∈ ts, u t = c) → ∀ z, ts.foldl (fun z t => a * z + (1 - a) * u t) z - c = a ^ ts.length * (z - c) := by
      intro ts
      induction ts with
      | nil => intro _ z; simp
      | cons t ts ih =>
        intro hu z
        rw [List.foldl_cons, ih (fun t ht => hu t (.tail _ ht)), hu t (.head _), List.length_cons, pow_succ]
        ring
    rw [hf _ (fun t ht => hu t (List.dropLast_subset _ ht))]
    simp

end

/-! ## Example: a shift register, a sum and a filter behind an input -/

def first : Leaf ℚ := { id := 1, links := [(0, Demo.inp), (1, Demo.ot)], kind := .memory 0 1 }
def second : Leaf ℚ := { id := 2, links := [(1, Demo.inp), (2, Demo.ot)], kind := .memory 1 2 }
def total : Leaf ℚ := { id := 3, links := [(4, Demo.inp), (3, Demo.ot)], kind := .memory 4 3 }
def plus : Leaf ℚ := { id := 4, links := [(3, Demo.rq), (0, Demo.rq), (4, Demo.ot)], kind := .add (.scalar 0) [3, 0] 4 }
def level : Leaf ℚ := { id := 5, links := [(8, Demo.inp), (5, Demo.ot)], kind := .memory 8 5 }
def old : Leaf ℚ := { id := 6, links := [(5, Demo.rq), (6, Demo.ot)], kind := .gain (.scalar (3/4)) 5 6 }
def now : Leaf ℚ := { id := 7, links := [(0, Demo.rq), (7, Demo.ot)], kind := .gain (.scalar (1/4)) 0 7 }
def mean : Leaf ℚ := { id := 8, links := [(6, Demo.rq), (7, Demo.rq), (8, Demo.ot)], kind := .add (.scalar 0) [6, 7] 8 }

/-- The input is the signal 0, a function of time. -/
def prog (u : ℚ → ℚ) (st : Strategy) : Config ℚ where
  dbg := true
  model := .sub 100 [] [.leaf first, .leaf second, .leaf total, .leaf plus, .leaf level, .leaf old, .leaf now, .leaf mean]
  deriv _ := none
  inputs := none
  modelInput t := ([(0, .scalar (u t))], none)
  stepper := none
  strategy := st
  hash := id

def wires : List (Wire ℚ) :=
  [⟨1, .memory .double, [C58.sc "in" 0], [C58.sc "out" 1]⟩, ⟨2, .memory .double, [C58.sc "in" 1], [C58.sc "out" 2]⟩,
    ⟨3, .memory .double, [C58.sc "in" 4], [C58.sc "out" 3]⟩, ⟨4, .add .double (.scalar 0), [C58.sc "x" 3, C58.sc "y" 0], [C58.sc "out" 4]⟩,
    ⟨5, .memory .double, [C58.sc "in" 8], [C58.sc "out" 5]⟩, ⟨6, .gain .double (.scalar (3/4)), [C58.sc "in" 5], [C58.sc "out" 6]⟩,
    ⟨7, .gain .double (.scalar (1/4)), [C58.sc "in" 0], [C58.sc "out" 7]⟩, ⟨8, .add .double (.scalar 0), [C58.sc "x" 6, C58.sc "y" 7], [C58.sc "out" 8]⟩]

def world : World ℚ where
  sig _ := { ty := .scalar }
  mem b := { value := .scalar (if b = 1 then 10 else if b = 2 then 20 else if b = 3 then 30 else 40) }
  done _ := false
  log := []

theorem leaves_eq (u : ℚ → ℚ) (st : Strategy) : (prog u st).model.leaves = [first, second, total, plus, level, old, now, mean] := by
  simp [prog, Block.leaves, leavesL]

def gives : List (Nat × Nat) := [(1, 1), (2, 2), (3, 3), (4, 4), (5, 5), (6, 6), (7, 7), (8, 8)]
def needs : List (Nat × Nat) := [(4, 3), (4, 0), (6, 5), (7, 0), (8, 6), (8, 7)]

theorem wires_mem : ∀ p ∈ wires, (∀ i, p.Gives i → (p.id, i) ∈ gives) ∧ (∀ i, p.Takes i → i ≤ 8) ∧ (∀ i, p.Needs i → (p.id, i) ∈ needs) ∧ p.obj.isState = false := by
  intro p hp
  simp only [wires, List.mem_cons, List.not_mem_nil, or_false] at hp
  rcases hp with rfl | rfl | rfl | rfl | rfl | rfl | rfl | rfl
  all_goals refine ⟨?_, ?_, ?_, rfl⟩
  all_goals
    first
    | (rintro i ⟨k, t, hi⟩; simp only [C58.sc, List.mem_cons, List.not_mem_nil, or_false] at hi; cases hi; decide)
    | (rintro i ⟨k, t, hi⟩; simp only [C58.sc, List.mem_cons, List.not_mem_nil, or_false] at hi; rcases hi with hi | hi <;> cases hi <;> decide)
    | (intro i hi; exact hi.elim)

theorem giver (i : SigId) (h : i ≤ 8) (hi : i ≠ 0) : ∃ p ∈ wires, p.Gives i := by
  have : i = 1 ∨ i = 2 ∨ i = 3 ∨ i = 4 ∨ i = 5 ∨ i = 6 ∨ i = 7 ∨ i = 8 := by
    have key : ∀ n : Nat, n ≤ 8 → n ≠ 0 → n = 1 ∨ n = 2 ∨ n = 3 ∨ n = 4 ∨ n = 5 ∨ n = 6 ∨ n = 7 ∨ n = 8 := fun n => by omega
    exact key i h hi
  rcases this with rfl | rfl | rfl | rfl | rfl | rfl | rfl | rfl
  · exact ⟨_, .head _, str "out", .scalar, .head _⟩
  · exact ⟨_, .tail _ (.head _), str "out", .scalar, .head _⟩
  · exact ⟨_, .tail _ (.tail _ (.head _)), str "out", .scalar, .head _⟩
  · exact ⟨_, .tail _ (.tail _ (.tail _ (.head _))), str "out", .scalar, .head _⟩
  · exact ⟨_, .tail _ (.tail _ (.tail _ (.tail _ (.head _)))), str "out", .scalar, .head _⟩
  · exact ⟨_, .tail _ (.tail _ (.tail _ (.tail _ (.tail _ (.head _))))), str "out", .scalar, .head _⟩
  · exact ⟨_, .tail _ (.tail _ (.tail _ (.tail _ (.tail _ (.tail _ (.head _)))))), str "out", .scalar, .head _⟩
  · exact ⟨_, .tail _ (.tail _ (.tail _ (.tail _ (.tail _ (.tail _ (.tail _ (.head _))))))), str "out", .scalar, .head _⟩

theorem sealed (u : ℚ → ℚ) (st : Strategy) (hst : st ≠ .reuse) : (prog u st).Sealed wires (fun _ => .scalar) (fun b => b) := by
  exact {
    dbg := rfl
    assembled := ⟨[first, second, total, plus, level, old, now, mean], by with_unfolding_all rfl, by rw [leaves_eq]⟩
    proper := by
      unfold Block.Proper
      have : (prog u st).model.ids = [100, 1, 2, 3, 4, 5, 6, 7, 8] := by
        simp [prog, first, second, total, plus, level, old, now, mean, Block.ids, Block.all, allL, Block.id]
      rw [this]; decide
    hash := fun _ => .refl _
    sane := by
      intro p hp
      have agrees : ∀ es : Entries, (∀ q ∈ es, ∃ k i, q = C58.sc k i) → Agrees (fun _ => .scalar) es ∧ Sized 1 es := by
        intro es hes
        refine ⟨fun q hq i t e => ?_, fun q hq i m e => ?_⟩ <;> (obtain ⟨k, j, rfl⟩ := hes q hq; cases e)
        rfl
      have h1 : ∀ a i, ∀ q ∈ [C58.sc a i], ∃ k i, q = C58.sc k i := fun a i q hq => by
        rw [List.mem_singleton] at hq; exact ⟨_, _, hq⟩
      have h2 : ∀ a i b j, ∀ q ∈ [C58.sc a i, C58.sc b j], ∃ k i, q = C58.sc k i := fun a i b j q hq => by
        simp only [List.mem_cons, List.not_mem_nil, or_false] at hq
        rcases hq with rfl | rfl <;> exact ⟨_, _, rfl⟩
      simp only [wires, List.mem_cons, List.not_mem_nil, or_false] at hp
      rcases hp with rfl | rfl | rfl | rfl | rfl | rfl | rfl | rfl <;> first
        | exact ⟨(agrees _ (h1 _ _)).1, (agrees _ (h1 _ _)).1, .inl ⟨1, Nat.one_pos, trivial, trivial, (agrees _ (h1 _ _)).2, (agrees _ (h1 _ _)).2⟩⟩
        | exact ⟨(agrees _ (h1 _ _)).1, (agrees _ (h1 _ _)).1, .inl ⟨1, Nat.one_pos, .inl ⟨trivial, _, rfl⟩, trivial, (agrees _ (h1 _ _)).2, (agrees _ (h1 _ _)).2⟩⟩
        | exact ⟨(agrees _ (h2 _ _ _ _)).1, (agrees _ (h1 _ _)).1, .inl ⟨1, Nat.one_pos, ⟨trivial, rfl, rfl⟩, trivial, (agrees _ (h2 _ _ _ _)).2, (agrees _ (h1 _ _)).2⟩⟩
    once := by
      intro p hp q hq i h1 h2
      have key : ∀ a ∈ gives, ∀ c ∈ gives, a.2 = c.2 → a.1 = c.1 := by decide
      exact key _ ((wires_mem p hp).1 i h1) _ ((wires_mem q hq).1 i h2) rfl
    provided := fun p hp j hj => by
      by_cases h0 : j = 0
      · exact .inl fun t => by rw [h0]; exact .head _
      · exact .inr (giver j ((wires_mem p hp).2.1 j hj) h0)
    loops := by
      intro p hp j hn q hq hg
      have key : ∀ a ∈ needs, ∀ c ∈ gives, a.2 = c.2 → c.1 < a.1 := by decide
      exact .inr (key _ ((wires_mem p hp).2.2.1 j hn) _ ((wires_mem q hq).1 j hg) rfl)
    inputs := fun f e => by cases e
    modelInput := ⟨fun t => ⟨fun p hp => (by
      simp only [prog, List.mem_cons, List.not_mem_nil, or_false] at hp
      subst hp
      exact ⟨rfl, fun _ => rfl⟩), fun e h => (by cases h)⟩, fun _ => rfl⟩
    inputOnce := fun t => List.nodup_singleton _
    inputFree := fun t s hs => by
      obtain rfl : s = 0 := List.mem_singleton.1 hs
      refine ⟨⟨_, .head _, str "in", .scalar, .head _⟩, fun p hp hg => ?_⟩
      exact absurd ((wires_mem p hp).1 0 hg) (by
        have : ∀ a ∈ gives, a.2 ≠ 0 := by decide
        exact fun h => this _ h rfl)
    stepper := fun s e => by cases e
    stepped := fun ⟨p, hp, e⟩ => by rw [(wires_mem p hp).2.2.2] at e; cases e
    reuse := fun e => (hst e).elim }

theorem new (u : ℚ → ℚ) (st : Strategy) : world.New (prog u st) (fun _ => .scalar) where
  fine := {
    types := fun _ => rfl
    cells := fun _ => ⟨fun e => (by cases e), fun v e => (by cases e)⟩
    members := by
      intro l hl
      rw [leaves_eq] at hl
      simp only [List.mem_cons, List.not_mem_nil, or_false] at hl
      rcases hl with rfl | rfl | rfl | rfl | rfl | rfl | rfl | rfl <;> trivial }
  done := fun _ => rfl
  record := fun _ _ _ => rfl

theorem plain : ∀ p ∈ wires, p.obj.Plain := by simp [wires, Make.Plain]

theorem clocked (u : ℚ → ℚ) (st : Strategy) : Clocked (prog u st) wires 0 (fun t => .scalar (u t)) :=
  fun _ _ t _ _ _ hs => hs.input (0, .scalar (u t)) (by simp [prog, Config.inputVals])

/-- After the runs for 1, 2, 3 the registers show the inputs at 2 and at 1; after the run for 1 alone the second shows what the first one held at the beginning. -/
example (u : ℚ → ℚ) (st : Strategy) (hst : st ≠ .reuse) : ∃ m0 m m', Call.exec (prog u st) (.init 0) { w := world, s := { tPrev := 0 } } = .ok () m0 ∧
    RunsTo (prog u st) 1 2 m0 [1, 2, 3] m ∧ m.w.shown 1 = some (.scalar (u 2)) ∧ m.w.shown 2 = some (.scalar (u 1)) ∧
    RunsTo (prog u st) 1 2 m0 [1] m' ∧ m'.w.shown 1 = some (.scalar (u 0)) ∧ m'.w.shown 2 = some (.scalar 10) := by
  obtain ⟨m0, e1, e2⟩ := C90_chain (prog u st) wires _ _ (sealed u st hst) plain (fun _ e => by cases e) (fun _ => C57.ordered_exact) [(1, 0, 1), (2, 1, 2)]
    (by
      intro q hq
      rw [leaves_eq]
      simp only [List.mem_cons, List.not_mem_nil, or_false] at hq
      rcases hq with rfl | rfl
      · exact ⟨first, by simp, rfl, rfl⟩
      · exact ⟨second, by simp, rfl, rfl⟩) 0 ⟨rfl, rfl, trivial⟩ _ (clocked u st) world (new u st) rfl 0 0 1 2 (by decide +kernel) (by decide +kernel)
  have l1 : ([0, 1, 2, 3] : List ℚ).IsChain Later := by simp [later_exact, later_exact (show (2 : ℚ) < 3 by norm_num)]
  have l2 : ([0, 1] : List ℚ).IsChain Later := by simp [later_exact]
  obtain ⟨m, hm⟩ := (e2 [1, 2, 3] l1).1
  obtain ⟨m', hm'⟩ := (e2 [1] l2).1
  exact ⟨m0, m, m', e1, hm, (e2 _ l1).2 m hm 0 _ rfl, (e2 _ l1).2 m hm 1 _ rfl, hm', (e2 _ l2).2 m' hm' 0 _ rfl, (e2 _ l2).2 m' hm' 1 _ rfl⟩

/-- The total is 30 and the inputs before, and the level stays between 0 and 40 as long as the input does. -/
example (u : ℚ → ℚ) (st : Strategy) (hst : st ≠ .reuse) (ts : List ℚ) (hts : (0 :: ts).Pairwise (· < ·)) (hu : ∀ t ∈ 0 :: ts, 0 ≤ u t ∧ u t ≤ 40) :
    ∃ m0 m z, Call.exec (prog u st) (.init 0) { w := world, s := { tPrev := 0 } } = .ok () m0 ∧ RunsTo (prog u st) 1 2 m0 ts m ∧
      m.w.shown 3 = some (.scalar (30 + ((0 :: ts).dropLast.map u).sum)) ∧ m.w.shown 5 = some (.scalar z) ∧ 0 ≤ z ∧ z ≤ 40 := by
  have hpe : ∀ stp, (prog u st).stepper = some stp → stp ∈ [euler, rk4] := fun _ e => by cases e
  have two : ∀ (val : SigId → Option (Val ℚ)) (a b : ℚ) (i j o : SigId), val i = some (.scalar a) → val j = some (.scalar b) →
      (∃ r, Folded val (· +. ·) (.scalar 0) [i, j] r ∧ val o = some r) → val o = some (.scalar (a + b)) := by
    rintro val a b i j o ha hb ⟨r, hf, ho⟩
    cases hf with
    | cons k1 k2 k3 =>
      cases k3 with
      | cons k4 k5 k6 =>
        cases k6
        rw [ha] at k1
        rw [hb] at k4
        cases k1
        cases k4
        cases k2
        cases k5
        rw [ho]
        show some (Val.scalar (0 + a + b)) = _
        rw [zero_add]
  have times : ∀ (val : SigId → Option (Val ℚ)) (a k : ℚ) (i o : SigId), val i = some (.scalar a) → (∃ a r, val i = some a ∧ Scaled (.scalar k) a r ∧ val o = some r) →
      val o = some (.scalar (k * a)) := by
    rintro val a k i o ha ⟨b, r, h1, h2, h3⟩
    rw [ha] at h1
    cases h1
    cases h2
    exact h3
  obtain ⟨m0, e1, e2⟩ := C90_sum (prog u st) wires _ _ (sealed u st hst) plain hpe total (by rw [leaves_eq]; simp) 4 3 rfl u (by
    intro V mem t y val z hV hs hz
    have := all_solved (sealed u st hst) hV hs plus (by rw [leaves_eq]; simp)
    exact two val z (u t) 3 0 4 hz (clocked u st V mem t y val hV hs) this) world (new u st) rfl 30 rfl 0 0 1 2 (by norm_num) (by norm_num)
  obtain ⟨m0', e1', e2'⟩ := C90_filter (prog u st) wires _ _ (sealed u st hst) plain hpe level (by rw [leaves_eq]; simp) 8 5 rfl u (3/4) (by
    intro V mem t y val z hV hs hz
    have a1 := all_solved (sealed u st hst) hV hs old (by rw [leaves_eq]; simp)
    have a2 := all_solved (sealed u st hst) hV hs now (by rw [leaves_eq]; simp)
    have a3 := all_solved (sealed u st hst) hV hs mean (by rw [leaves_eq]; simp)
    have b1 := times val z (3/4) 5 6 hz a1
    have b2 := times val (u t) (1/4) 0 7 (clocked u st V mem t y val hV hs) a2
    have := two val _ _ 6 7 8 b1 b2 a3
    rw [this]
    norm_num) world (new u st) rfl 40 rfl 0 0 1 2 (by norm_num) (by norm_num)
  rw [e1] at e1'
  cases e1'
  obtain ⟨m, hm⟩ := (e2 ts hts).1
  obtain ⟨z, z1, z2, _⟩ := (e2' ts hts).2 m hm
  exact ⟨m0, m, z, e1, hm, ((e2 ts hts).2 m hm).1, z1, z2 (by norm_num) (by norm_num) 0 40 (by norm_num) (by norm_num) hu⟩

end Pooya.C90
