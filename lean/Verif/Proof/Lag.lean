import Verif.Proof.Sketch

/-! The record of a `Delay`. -/

namespace Pooya

open Set

set_option linter.unusedSectionVars false

attribute [local instance] Arith.exact

/-- Times and values, the newest first. -/
abbrev Past := List (ℝ × (SigId → ℝ))

/-- Times from `a` to `t`, with distances of at most `η`. -/
structure Past.Dense (H : Past) (a η t : ℝ) : Prop where
  chain : H.IsChain (fun r q => q.1 < r.1 ∧ r.1 - q.1 ≤ η)
  head : H.head?.map Prod.fst = some t
  last : H.getLast?.map Prod.fst = some a

/-- The record `m` of the signal `x` is the past, but for times older than the lifespan. -/
def Past.Kept (H : Past) (t life : ℝ) (x : SigId) (m : Mem ℝ) : Prop :=
  ∃ K D : Past, H = K ++ D ∧ m.ts = (K.map Prod.fst).reverse ∧ m.xs = (K.map fun r => Val.scalar (r.2 x)).reverse ∧ ∀ r ∈ D, r.1 < t - life

theorem Past.Dense.cons {H : Past} {a η t u : ℝ} (h : H.Dense a η t) (hu : t < u) (hη : u - t ≤ η) (Z : SigId → ℝ) : Past.Dense ((u, Z) :: H) a η u := by
  obtain ⟨h1, h2, h3⟩ := h
  match H, h2 with
  | r :: H, h2 =>
    have e : r.1 = t := by simpa using h2
    refine ⟨List.isChain_cons_cons.2 ⟨?_, h1⟩, rfl, ?_⟩
    · simp only [e]; exact ⟨hu, hη⟩
    · rw [List.getLast?_cons_cons]; exact h3

theorem Past.Kept.scalars {H : Past} {t life : ℝ} {x : SigId} {m : Mem ℝ} (h : H.Kept t life x m) : ∀ v ∈ m.xs, ∃ z, v = .scalar z := by
  obtain ⟨K, D, _, _, h, _⟩ := h
  intro v hv
  rw [h, List.mem_reverse, List.mem_map] at hv
  obtain ⟨r, _, rfl⟩ := hv
  exact ⟨_, rfl⟩

theorem Past.Kept.none (t life : ℝ) (x : SigId) (m : Mem ℝ) (h : m.ts = [] ∧ m.xs = []) : Past.Kept [] t life x m :=
  ⟨[], [], rfl, h.1, h.2, fun _ h => by cases h⟩

/-- `post_step` keeps the past and adds the present. -/
theorem Past.Kept.stored {H : Past} {t u life : ℝ} {x e i out : SigId} {m m' : Mem ℝ} (h : H.Kept t life x m) (hu : t ≤ u) {l : Leaf ℝ} (hl : l.kind = .delay life x e i out)
    {val : SigId → Option (Val ℝ)} {z : ℝ} (hz : val x = some (.scalar z)) (hs : l.Stored u val m m') : Past.Kept ((u, fun s => scal (val s)) :: H) u life x m' := by
  unfold Leaf.Stored at hs
  rw [hl] at hs
  obtain ⟨k, v, hv, h1, h2, h3, rfl⟩ := hs
  rw [hz] at hv
  cases hv
  obtain ⟨K, D, rfl, q1, q2, q3⟩ := h
  have hlen : m.ts.length = K.length := by rw [q1]; simp
  refine ⟨(u, fun s => scal (val s)) :: K.take (K.length - k), K.drop (K.length - k) ++ D, ?_, ?_, ?_, fun r hr => ?_⟩
  · rw [List.cons_append, ← List.append_assoc, List.take_append_drop]
  · simp only [List.map_cons, List.reverse_cons, q1]
    rw [List.drop_reverse, List.length_map, List.map_take]
  · simp only [List.map_cons, List.reverse_cons, q2, hz, scal]
    rw [List.drop_reverse, List.length_map, List.map_take]
  · rcases List.mem_append.1 hr with hr | hr
    · obtain ⟨j, hj, rfl⟩ := List.getElem_of_mem hr
      rw [List.length_drop] at hj
      rw [List.getElem_drop]
      have := h1 (K.length - 1 - (K.length - k + j)) (K[K.length - k + j]'(by omega)).1 (by omega) (by
        rw [q1, List.getElem?_reverse (by rw [List.length_map]; omega), List.length_map, List.getElem?_map,
          show K.length - 1 - (K.length - 1 - (K.length - k + j)) = K.length - k + j by omega, List.getElem?_eq_getElem (by omega)]
        rfl)
      have := of_decide_eq_false this
      exact not_le.1 this
    · have := q3 r hr; linarith

theorem Past.Dense.older {H : Past} {a η t : ℝ} (h : H.Dense a η t) : ∀ r ∈ H, a ≤ r.1 ∧ r.1 ≤ t := by
  have hp : H.Pairwise (fun r q => q.1 < r.1) := by
    have : Trans (fun r q : ℝ × (SigId → ℝ) => q.1 < r.1) (fun r q : ℝ × (SigId → ℝ) => q.1 < r.1) (fun r q : ℝ × (SigId → ℝ) => q.1 < r.1) := ⟨fun h1 h2 => lt_trans h2 h1⟩
    exact (List.isChain_iff_pairwise (R := fun r q : ℝ × (SigId → ℝ) => q.1 < r.1)).1 (h.chain.imp fun _ _ h => h.1)
  intro r hr
  constructor
  · have h3 := h.last
    rw [Option.map_eq_some_iff] at h3
    obtain ⟨q, h3, rfl⟩ := h3
    obtain ⟨H', rfl⟩ := List.getLast?_eq_some_iff.1 h3
    rcases List.mem_append.1 hr with hr | hr
    · exact (List.pairwise_append.1 hp).2.2 r hr q (.head _) |>.le
    · rw [List.mem_singleton.1 hr]
  · have h2 := h.head
    match H, h2, hr, hp with
    | q :: H, h2, hr, hp =>
      have e : q.1 = t := by simpa using h2
      rcases List.mem_cons.1 hr with rfl | hr
      · exact e.le
      · rw [← e]; exact ((List.pairwise_cons.1 hp).1 r hr).le

/-- What the block finds for the time `u - g`: the value of `initial`, or a mean of two recorded values of about that time. -/
theorem Past.Kept.recall {H : Past} {a η t u life g : ℝ} {x : SigId} {m : Mem ℝ} (h : H.Kept t life x m) (hd : H.Dense a η t) (hut : t ≤ u) (huη : u ≤ t + η) (hg : 0 ≤ g)
    (hgl : g + η < life) {init v : Val ℝ} (hr : Recalled m.ts m.xs (u - g) init v) :
    (u - g ≤ a ∧ v = init ∧ ∃ t0 rest, m.ts = t0 :: rest ∧ u - g ≤ t0) ∨
    (a < u - g ∧ ∃ r ∈ H, ∃ r' ∈ H, ∃ c, 0 ≤ c ∧ c ≤ 1 ∧ |r.1 - (u - g)| ≤ η ∧ |r'.1 - (u - g)| ≤ η ∧ v = .scalar ((1 - c) * r.2 x + c * r'.2 x)) := by
  have hη : 0 ≤ η := by linarith
  have hold := hd.older
  obtain ⟨K, D, rfl, q1, q2, q3⟩ := h
  have hchain := List.isChain_append.1 hd.chain
  -- the oldest time in the record
  have hK : ∀ t0 rest, m.ts = t0 :: rest → a < t0 → t0 < u - g := by
    intro t0 rest e ha
    rw [q1] at e
    have e2 : (K.map Prod.fst).getLast? = some t0 := by rw [← List.head?_reverse, e]; rfl
    rw [List.getLast?_map, Option.map_eq_some_iff] at e2
    obtain ⟨r, e2, rfl⟩ := e2
    match D, q3, hchain, hd with
    | [], _, _, hd =>
      have := hd.last
      rw [List.append_nil, e2] at this
      simp at this
      linarith
    | q :: D, q3, hchain, _ =>
      obtain ⟨_, hgap⟩ := hchain.2.2 r (by rw [e2]; rfl) q (by rfl)
      have := q3 q (.head _)
      linarith
  have hfirst : ∀ t0 rest, m.ts = t0 :: rest → a ≤ t0 := by
    intro t0 rest e
    rw [q1] at e
    have : t0 ∈ (K.map Prod.fst).reverse := by rw [e]; exact .head _
    rw [List.mem_reverse, List.mem_map] at this
    obtain ⟨r, hr, rfl⟩ := this
    exact (hold r (List.mem_append.2 (.inl hr))).1
  have hlen : m.ts.length = K.length := by rw [q1]; simp
  have atts : ∀ (j : Nat) (s : ℝ), m.ts[j]? = some s → j < K.length ∧ ∃ r, K[K.length - 1 - j]? = some r ∧ r.1 = s ∧ m.xs[j]? = some (.scalar (r.2 x)) := by
    intro j s e
    have hj : j < m.ts.length := by by_contra hn; rw [List.getElem?_eq_none (by omega)] at e; cases e
    rw [hlen] at hj
    rw [q1, List.getElem?_reverse (by rw [List.length_map]; exact hj), List.length_map, List.getElem?_map, Option.map_eq_some_iff] at e
    obtain ⟨r, e1, e2⟩ := e
    refine ⟨hj, r, e1, e2, ?_⟩
    rw [q2, List.getElem?_reverse (by rw [List.length_map]; exact hj), List.length_map, List.getElem?_map, e1]
    rfl
  cases hr with
  | before e hle =>
    rename_i t0 rest
    have hle := of_decide_eq_true hle
    refine .inl ⟨?_, rfl, t0, rest, e, hle⟩
    rcases (hfirst _ _ e).eq_or_lt with k | k
    · exact k ▸ hle
    · have := hK _ _ e k
      have hle : u - g ≤ t0 := hle
      linarith
  | after e hlt hn hle hv =>
    rename_i t0 tn rest
    have hlt : ¬ (u - g ≤ t0) := of_decide_eq_false hlt
    have hle : tn ≤ u - g := of_decide_eq_true hle
    have ha := hfirst _ _ e
    refine .inr ⟨by linarith [not_le.1 hlt], ?_⟩
    rw [q1, List.getLast?_reverse, List.head?_map, Option.map_eq_some_iff] at hn
    obtain ⟨r, hr1, rfl⟩ := hn
    rw [q2, List.getLast?_reverse, List.head?_map, hr1] at hv
    have hrK : r ∈ K := List.mem_of_head? hr1
    have hrt : r.1 = t := by
      have := hd.head
      rw [List.head?_append, hr1] at this
      simpa using this
    have hm : r ∈ K ++ D := List.mem_append.2 (.inl hrK)
    have hab : |r.1 - (u - g)| ≤ η := by rw [abs_le]; constructor <;> linarith
    refine ⟨r, hm, r, hm, 0, le_refl _, zero_le_one, hab, hab, ?_⟩
    cases hv
    simp
  | between e hlt hn hle hall ei ej hj ea eb hb =>
    rename_i t0 ta tb tn rest i va vb
    have hlt : ¬ (u - g ≤ t0) := of_decide_eq_false hlt
    have ha := hfirst _ _ e
    refine .inr ⟨by linarith [not_le.1 hlt], ?_⟩
    obtain ⟨hi, r, r1, rfl, r3⟩ := atts _ _ ei
    obtain ⟨hi', r', r1', rfl, r3'⟩ := atts _ _ ej
    rw [r3] at ea
    rw [r3'] at eb
    cases ea
    cases eb
    cases hb
    have hq1 : ¬ (u - g ≤ r.1) := of_decide_eq_false (hall i _ (le_refl _) ei)
    have hq2 : u - g ≤ r'.1 := of_decide_eq_true hj
    have hgap : r.1 < r'.1 ∧ r'.1 - r.1 ≤ η := by
      have hc := List.isChain_iff_getElem.1 hchain.1 (K.length - 1 - (i + 1)) (by omega)
      rw [List.getElem?_eq_getElem (by omega)] at r1 r1'
      cases r1
      cases r1'
      simp only [show K.length - 1 - (i + 1) + 1 = K.length - 1 - i by omega] at hc
      exact hc
    have hq1 := not_le.1 hq1
    have hpos : 0 < r'.1 - r.1 := by linarith [hgap.1]
    refine ⟨r, List.mem_append.2 (.inl (List.mem_of_getElem? r1)), r', List.mem_append.2 (.inl (List.mem_of_getElem? r1')), (u - g - r.1) / (r'.1 - r.1),
      div_nonneg (by linarith) hpos.le, (div_le_one hpos).2 (by linarith), ?_, ?_, ?_⟩
    · rw [abs_le]; constructor <;> linarith [hgap.2]
    · rw [abs_le]; constructor <;> linarith [hgap.2]
    · congr 1
      show (r'.2 x - r.2 x) * (u - g - r.1) / (r'.1 - r.1) + r.2 x = _
      field_simp
      ring

end Pooya
