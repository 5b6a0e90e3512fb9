import Verif.Model.Bus
import Verif.Props.C01

/-! # C07 — a bus names unnamed signals once -/

namespace Pooya.C07

/-- Construction of one bus, labelled or not. -/
inductive BusOp where
  | labelled (l : List (Str × Signal))
  | auto (l : List Signal)

/-- Names after a bus construction. -/
def BusOp.run (nm : Names) : BusOp → Names
  | .labelled l => (mkBus nm l).1
  | .auto l => (mkBusAuto nm 0 l).1

/-- The pairs (label, signal) a construction stores. -/
def BusOp.entries (nm : Names) : BusOp → Entries
  | .labelled l => (mkBus nm l).2
  | .auto l => (mkBusAuto nm 0 l).2

/-- Specification: the name of signal `i` after a bus with the given stored entries was built: a
non-empty name stays; an empty one becomes the first non-empty label under which the signal is in the
bus (and stays empty if there is none). -/
def nameAfter (nm : Names) (es : Entries) (i : SigId) : Str :=
  if nm i ≠ [] then nm i
  else ((es.filter (fun p => p.2.id = i)).map Prod.fst |>.find? (fun l => l ≠ [])).getD []

theorem emend_emend (s : Str) : emend (emend s) = emend s :=
  (C01.C01_legal_unchanged (emend s) (C01.emend_sanitised s).legal ⟨⟨[]⟩⟩).1

theorem nameAfter_put (nm : Names) (label : Str) (s : Signal) (es : Entries) (i : SigId) :
    nameAfter (busPut nm label s).1 es i = nameAfter nm ((busPut nm label s).2 :: es) i := by
  simp only [busPut, nameAfter, emend_emend]
  by_cases hi : i = s.id
  · subst hi
    by_cases h0 : nm s.id = []
    · by_cases hl : emend label = []
      · simp [h0, upd, hl]
      · simp [h0, upd, hl]
    · simp [h0]
  · have : ¬ s.id = i := fun h => hi h.symm
    by_cases h0 : nm s.id = []
    · simp [h0, upd, hi, this]
    · simp [h0, this]

theorem mkBus_names (nm : Names) (l : List (Str × Signal)) (i : SigId) :
    (mkBus nm l).1 i = nameAfter nm (mkBus nm l).2 i := by
  induction l generalizing nm with
  | nil => by_cases h : nm i = [] <;> simp [mkBus, nameAfter, h]
  | cons p rest ih =>
    obtain ⟨a, s⟩ := p
    simp only [mkBus]
    rw [ih, nameAfter_put]

theorem mkBusAuto_names (nm : Names) (k : Nat) (l : List Signal) (i : SigId) :
    (mkBusAuto nm k l).1 i = nameAfter nm (mkBusAuto nm k l).2 i := by
  induction l generalizing nm k with
  | nil => by_cases h : nm i = [] <;> simp [mkBusAuto, nameAfter, h]
  | cons s rest ih =>
    simp only [mkBusAuto]
    rw [ih, nameAfter_put]

/-- C07: one construction names a signal from its label exactly if its name was empty. -/
theorem C07_one (nm : Names) (op : BusOp) (i : SigId) :
    op.run nm i = nameAfter nm (op.entries nm) i := by
  cases op with
  | labelled l => exact mkBus_names nm l i
  | auto l => exact mkBusAuto_names nm 0 l i

/-- C07: once a signal has a name it keeps it through any number of bus constructions. -/
theorem C07_keeps (nm : Names) (ops : List BusOp) (i : SigId) (h : nm i ≠ []) :
    (ops.foldl BusOp.run nm) i = nm i := by
  induction ops generalizing nm with
  | nil => rfl
  | cons op ops ih =>
    have h1 : op.run nm i = nm i := by rw [C07_one, nameAfter, if_pos h]
    rw [List.foldl_cons, ih _ (by rw [h1]; exact h), h1]

/-- C07: signals that are in none of the buses keep their name, named or not. -/
theorem C07_frame (nm : Names) (op : BusOp) (i : SigId) (h : ∀ p ∈ op.entries nm, p.2.id ≠ i) :
    op.run nm i = nm i := by
  rw [C07_one, nameAfter]
  have : (op.entries nm).filter (fun p => p.2.id = i) = [] := by
    rw [List.filter_eq_nil_iff]; intro p hp; simp [h p hp]
  by_cases h0 : nm i = [] <;> simp [this, h0]

/-- An unnamed signal put in two buses keeps the first label. -/
example : (([BusOp.labelled [(str "x 1", .val 7 .scalar)], .auto [.val 7 .scalar]]).foldl BusOp.run
    (fun _ => [])) 7 = str "x_1" := by decide +kernel

end Pooya.C07
