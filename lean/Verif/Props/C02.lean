import Verif.Props.C12
import Verif.Props.C01

/-! # C02 — full names identify the path -/

namespace Pooya.C02
open C11 C12

/-- Specification: the names on the path from the root to a block. -/
inductive RootPath (h : Heap) : BlkId → List Str → Prop
  | root {b : BlkId} : h.parent b = none → RootPath h b [(h.node b).name]
  | child {b p : BlkId} {ns : List Str} : h.parent b = some p → RootPath h p ns →
      RootPath h b (ns ++ [(h.node b).name])

/-- Specification: '/' before every name. -/
def joined : List Str → Str
  | [] => []
  | n :: ns => (47 : UInt8) :: n ++ joined ns

theorem joined_append (a b : List Str) : joined (a ++ b) = joined a ++ joined b := by
  induction a with
  | nil => rfl
  | cons n a ih => simp [joined, ih]

/-- No name contains '/'. -/
def Legal (h : Heap) : Prop := ∀ b, ∀ c ∈ (h.node b).name, c ∈ C01.legalBytes

theorem emend_legal (s : Str) : ∀ c ∈ emend s, c ∈ C01.legalBytes := (C01.emend_sanitised s).legal

theorem link_name (h : Heap) (p b c : BlkId) : ((linkBlock h p b).2.node c).name = (h.node c).name := by
  simp only [linkBlock]; split
  · rfl
  · simp only; split
    · rfl
    · by_cases hc : c = p <;> simp [upd, hc]

theorem set_name (h : Heap) (b p c : BlkId) : ((setParent h b p).2.node c).name = (h.node c).name := by
  have e : ∀ c, ((linkBlock { h with node := upd h.node b { h.node b with parent := some p } } p b).2.node c).name
      = (h.node c).name := by
    intro c
    rw [link_name]
    by_cases hc : c = b <;> simp [upd, hc]
  simp only [setParent]
  split
  · split
    · rfl
    · exact e c
  · exact e c

theorem step_legal {h : Heap} (hL : Legal h) (op : TOp) : Legal (op.step h) := by
  intro c
  cases op with
  | new k par n =>
    show ∀ x ∈ ((newBlock h k par n).2.node c).name, _
    cases par with
    | none =>
      by_cases hc : c = h.next
      · simpa [newBlock, upd, hc] using emend_legal n
      · simpa [newBlock, upd, hc] using hL c
    | some p =>
      simp only [newBlock]
      rw [link_name]
      by_cases hc : c = h.next
      · simpa [upd, hc] using emend_legal n
      · simpa [upd, hc] using hL c
  | setParent b p => show ∀ x ∈ ((setParent h b p).2.node c).name, _; rw [set_name]; exact hL c
  | linkBlock p b => show ∀ x ∈ ((linkBlock h p b).2.node c).name, _; rw [link_name]; exact hL c
  | addBlock p b => show ∀ x ∈ ((setParent h b p).2.node c).name, _; rw [set_name]; exact hL c
  | rename b n =>
    show ∀ x ∈ ((renameBlock h b n).node c).name, _
    by_cases hc : c = b
    · simpa [renameBlock, upd, hc] using emend_legal n
    · simpa [renameBlock, upd, hc] using hL c

theorem reachable_legal {h : Heap} (hr : h.Reachable) : Legal h := by
  induction hr with
  | empty => intro b c hc; simp [Heap.empty] at hc
  | step op _ _ ih => exact step_legal ih op

/-- C02: `full_name()` is '/' and the name of every block from the root down to the block; it returns
exactly if the chain of parents ends. -/
theorem C02_full_name (h : Heap) (b : BlkId) :
    (∀ ns, RootPath h b ns → ∃ k, ∀ n, k ≤ n → fullName h n b = some ⟨joined ns⟩) ∧
    (∀ n v, fullName h n b = some v → ∃ ns, RootPath h b ns ∧ v.name = joined ns) := by
  constructor
  · intro ns hp
    induction hp with
    | root h0 =>
      refine ⟨1, fun n hn => ?_⟩
      obtain ⟨n, rfl⟩ : ∃ k, n = k + 1 := ⟨n - 1, by omega⟩
      simp [fullName, h0, joined, ValidName.slash, ValidName.append, ValidName.empty]
    | child hp _ ih =>
      obtain ⟨k, ih⟩ := ih
      refine ⟨k + 1, fun n hn => ?_⟩
      obtain ⟨n, rfl⟩ : ∃ k, n = k + 1 := ⟨n - 1, by omega⟩
      simp [fullName, hp, ih n (by omega), joined, joined_append, ValidName.slash, ValidName.append]
  · intro n
    induction n generalizing b with
    | zero => intro v hv; simp [fullName] at hv
    | succ n ih =>
      intro v hv
      simp only [fullName] at hv
      split at hv
      · rename_i hp
        simp at hv; subst hv
        exact ⟨_, .root hp, by simp [joined, ValidName.slash, ValidName.append, ValidName.empty]⟩
      · rename_i p hp
        simp at hv
        obtain ⟨u, hu, rfl⟩ := hv
        obtain ⟨ns, h1, h2⟩ := ih p u hu
        exact ⟨_, .child hp h1, by simp [joined, joined_append, ValidName.slash, ValidName.append, h2]⟩

theorem rootPath_legal {h : Heap} (hL : Legal h) {b : BlkId} {ns : List Str} (hp : RootPath h b ns) :
    ∀ n ∈ ns, (47 : UInt8) ∉ n := by
  have h47 : (47 : UInt8) ∉ C01.legalBytes := by decide +kernel
  induction hp with
  | root _ =>
    intro n hn hc
    simp at hn; subst hn
    exact h47 (hL _ _ hc)
  | child _ _ ih =>
    intro n hn hc
    rcases List.mem_append.1 hn with hn | hn
    · exact ih n hn hc
    · simp at hn; subst hn
      exact h47 (hL _ _ hc)

theorem split_unique {a b r s : Str} (ha : (47 : UInt8) ∉ a) (hb : (47 : UInt8) ∉ b)
    (hr : r = [] ∨ ∃ r', r = 47 :: r') (hs : s = [] ∨ ∃ s', s = 47 :: s') (e : a ++ r = b ++ s) :
    a = b ∧ r = s := by
  induction a generalizing b with
  | nil =>
    cases b with
    | nil => exact ⟨rfl, by simpa using e⟩
    | cons c b =>
      rcases hr with rfl | ⟨r', rfl⟩
      · simp at e
      · simp at e; exact (hb (by simp [e.1])).elim
  | cons c a ih =>
    cases b with
    | nil =>
      rcases hs with rfl | ⟨s', rfl⟩
      · simp at e
      · simp at e; exact (ha (by simp [e.1])).elim
    | cons d b =>
      simp at e
      obtain ⟨h1, h2⟩ := ih (by simp at ha; exact ha.2) (by simp at hb; exact hb.2) e.2
      exact ⟨by rw [e.1, h1], h2⟩

theorem joined_shape (ns : List Str) : joined ns = [] ∨ ∃ r, joined ns = 47 :: r := by
  cases ns with
  | nil => exact Or.inl rfl
  | cons n ns => exact Or.inr ⟨n ++ joined ns, rfl⟩

theorem joined_injective {as bs : List Str} (ha : ∀ n ∈ as, (47 : UInt8) ∉ n)
    (hb : ∀ n ∈ bs, (47 : UInt8) ∉ n) (e : joined as = joined bs) : as = bs := by
  induction as generalizing bs with
  | nil =>
    cases bs with
    | nil => rfl
    | cons b bs => simp [joined] at e
  | cons a as ih =>
    cases bs with
    | nil => simp [joined] at e
    | cons b bs =>
      simp only [joined, List.cons_append, List.cons.injEq, true_and] at e
      obtain ⟨h1, h2⟩ := split_unique (ha a (by simp)) (hb b (by simp)) (joined_shape as) (joined_shape bs) e
      rw [h1, ih (fun n hn => ha n (by simp [hn])) (fun n hn => hb n (by simp [hn])) h2]

/-- C02: two blocks of any two programs have equal full names exactly if the names on their root paths
are equal. -/
theorem C02_identifies {h h' : Heap} (hr : h.Reachable) (hr' : h'.Reachable) {b b' : BlkId} {n n' : Nat}
    {v v' : ValidName} {ns ns' : List Str} (hv : fullName h n b = some v) (hv' : fullName h' n' b' = some v')
    (hp : RootPath h b ns) (hp' : RootPath h' b' ns') : v = v' ↔ ns = ns' := by
  have det : ∀ {h : Heap} {b : BlkId} {ns ms : List Str}, RootPath h b ns → RootPath h b ms → ns = ms := by
    intro h b ns ms h1 h2
    induction h1 generalizing ms with
    | root h0 => cases h2 with
      | root _ => rfl
      | child hp _ => rw [h0] at hp; cases hp
    | child hq _ ih => cases h2 with
      | root h0 => rw [h0] at hq; cases hq
      | child hp h3 => rw [hq] at hp; cases hp; rw [ih h3]
  obtain ⟨ms, h1, h2⟩ := (C02_full_name h b).2 n v hv
  obtain ⟨ms', h1', h2'⟩ := (C02_full_name h' b').2 n' v' hv'
  have e := det hp h1
  have e' := det hp' h1'
  subst e e'
  constructor
  · intro hvv
    apply joined_injective (rootPath_legal (reachable_legal hr) hp) (rootPath_legal (reachable_legal hr') hp')
    rw [← h2, ← h2', hvv]
  · intro hns
    cases v; cases v'; simp at h2 h2'
    rw [h2, h2', hns]

/-- C02: in a hierarchy built without cycles every block has such a path, and `full_name()` returns. -/
theorem C02_defined {h : Heap} (hg : Guarded h) {b : BlkId} (hb : b < h.next) :
    ∃ ns, RootPath h b ns ∧ fullName h (h.next + 1) b = some ⟨joined ns⟩ := by
  obtain ⟨v, hv⟩ := C12_full_name_partial hg.reachable (C12_partial hg) hb
  obtain ⟨ns, h1, h2⟩ := (C02_full_name h b).2 _ v hv
  exact ⟨ns, h1, by rw [hv]; cases v; simp at h2; rw [h2]⟩

/-- The leaf of the sample program. -/
example : (fullName sample 10 2).map ValidName.name = some (str "/a/c") := by decide +kernel

example : RootPath sample 2 [str "a", str "c"] :=
  .child (p := 0) (ns := [str "a"]) (by decide +kernel) (.root (by decide +kernel))

end Pooya.C02
