import Verif.Spec.Traceback
import Verif.Props.C62

/-! # C63: the traceback of debug builds -/

namespace Pooya.C63

open Pooya

variable {σ : Type}

set_option linter.unusedSectionVars false

variable {α β : Type} {dbg : Bool}

theorem balanced_bind {x : LM σ α} {f : α → LM σ β} (hx : Balanced x) (hf : ∀ a, Balanced (f a)) : Balanced (x >>= f) := by
  intro s
  rw [lm_bind]
  have k := hx s
  revert k
  cases x s with
  | ok a s' =>
    rintro ⟨k, -⟩
    have j := hf a s'
    exact ⟨j.1.trans k, j.2⟩
  | error e s' => exact fun k => ⟨k.1, fun s2 e2 => k.2 s2 (by cases e2; rfl)⟩

theorem balanced_pure (a : α) : Balanced (pure a : LM σ α) := fun _ => ⟨rfl, fun _ e => by cases e⟩

theorem balanced_fuel : Balanced (throw .fuel : LM σ α) := fun _ => ⟨rfl, fun _ e => by cases e⟩

theorem balanced_modify {f : Store σ → Store σ} (hf : ∀ s, (f s).trace = s.trace) : Balanced (modify f : LM σ Unit) := fun s => ⟨hf s, fun _ e => by cases e⟩

theorem balanced_deref (b : BlkId) : Balanced (deref (σ := σ) b) := by
  intro s
  unfold deref
  split
  · exact ⟨rfl, fun _ e => by cases e⟩
  · exact ⟨rfl, fun _ e => by cases e⟩

theorem balanced_fullName (n : Nat) (b : BlkId) : Balanced (fullNameP (σ := σ) n b) := by
  induction n generalizing b with
  | zero => exact balanced_fuel
  | succ n ih =>
    unfold fullNameP
    refine balanced_bind (balanced_deref b) fun nd => ?_
    cases nd.parent with
    | none => exact balanced_pure _
    | some p => exact balanced_bind (ih p) fun _ => balanced_pure _

theorem balanced_msg (n : Nat) (b : BlkId) : Balanced (blockMsg (σ := σ) n b) := balanced_bind (balanced_fullName n b) fun _ => balanced_pure _

theorem balanced_traced {file : String} {line : Int} {msg : LM σ Str} {x : LM σ α} (hm : Balanced msg) (hx : Balanced x) : Balanced (traced dbg file line msg x) := by
  intro s
  unfold traced
  cases dbg with
  | false => exact hx s
  | true =>
    simp only [if_true]
    have key : ∃ t, (EStateM.Result.left ((do let m ← msg; traceUpdate true file line m; x : LM σ α) { s with trace := {} :: s.trace })).trace = t :: s.trace ∧
        ∀ s', (do let m ← msg; traceUpdate true file line m; x : LM σ α) { s with trace := {} :: s.trace } ≠ .error (.ub .outOfBounds) s' := by
      rw [lm_bind]
      have k := hm { s with trace := {} :: s.trace }
      revert k
      cases msg { s with trace := {} :: s.trace } with
      | error e s' => exact fun k => ⟨_, k.1, fun s2 e2 => k.2 s2 (by cases e2; rfl)⟩
      | ok m s' =>
        rintro ⟨k, -⟩
        have k : s'.trace = {} :: s.trace := k
        simp only
        rw [lm_bind]
        unfold traceUpdate
        rw [k]
        exact ⟨_, (hx _).1, (hx _).2⟩
    obtain ⟨t, key, hne⟩ := key
    revert key hne
    cases (do let m ← msg; traceUpdate true file line m; x : LM σ α) { s with trace := {} :: s.trace } with
    | ok a s2 =>
      intro k _
      have k : s2.trace = t :: s.trace := k
      simp only [tracePop, k]
      exact ⟨rfl, fun _ e => by cases e⟩
    | error e s2 =>
      intro k hne
      have k : s2.trace = t :: s.trace := k
      simp only [tracePop, k]
      exact ⟨rfl, fun s' e2 => hne s2 (by cases e2; rfl)⟩

theorem balanced_link (n : Nat) (p b : BlkId) : Balanced (linkBlockP (σ := σ) dbg n p b) := by
  refine balanced_traced (balanced_msg n p) (balanced_bind (balanced_deref b) fun nd => ?_)
  split
  · exact balanced_bind (balanced_fullName n b) fun _ => balanced_pure _
  · refine balanced_bind (balanced_deref p) fun np => ?_
    split
    · exact balanced_pure _
    · exact balanced_bind (balanced_modify fun _ => rfl) fun _ => balanced_pure _

theorem balanced_forKids {f : BlkId → LM σ Bool} (hf : ∀ c, Balanced (f c)) (l : List BlkId) : Balanced (forKids f l) := by
  induction l with
  | nil => exact balanced_pure _
  | cons c cs ih =>
    unfold forKids
    refine balanced_bind (hf c) fun r => ?_
    cases r with
    | false => exact balanced_pure _
    | true => exact ih

theorem balanced_visit {cb : BlkId → Nat → LM σ Bool} (hcb : ∀ b l, Balanced (cb b l)) (n : Nat) (b : BlkId) (lv m : Nat) : Balanced (visitP dbg cb n b lv m) := by
  induction n generalizing b lv with
  | zero => exact balanced_fuel
  | succ n ih =>
    unfold visitP
    refine balanced_bind (balanced_deref b) fun nd => ?_
    have hbase : Balanced (traced dbg "block.hpp" 103 (blockMsg (σ := σ) n b) (if lv > m then pure true else cb b lv)) := by
      refine balanced_traced (balanced_msg n b) ?_
      split
      · exact balanced_pure _
      · exact hcb b lv
    simp only
    cases nd.isSub with
    | false => exact hbase
    | true =>
      refine balanced_traced (balanced_msg n b) ?_
      by_cases hl : lv > m
      · rw [if_pos hl]; exact balanced_pure _
      · rw [if_neg hl]
        refine balanced_bind hbase fun r => ?_
        cases r with
        | false => exact balanced_pure _
        | true =>
          simp only [Bool.not_true, Bool.false_eq_true, if_false]
          split
          · exact balanced_bind (balanced_deref b) fun nd => balanced_forKids (fun c => ih c _) _
          · exact balanced_pure _

theorem balanced_mark (flag : BlkId → Bool) (n : Nat) (b : BlkId) : Balanced (markP (σ := σ) dbg flag n b) := by
  induction n generalizing b with
  | zero => exact balanced_fuel
  | succ n ih =>
    unfold markP
    refine balanced_bind (balanced_deref b) fun nd => ?_
    cases nd.isSub with
    | false => exact balanced_modify fun _ => rfl
    | true =>
      refine balanced_traced (balanced_msg n b) (balanced_bind (balanced_deref b) fun nd => balanced_bind (balanced_modify fun _ => rfl) fun _ => ?_)
      exact balanced_bind (balanced_forKids (fun c => balanced_bind (ih c) fun _ => balanced_pure _) _) fun _ => balanced_pure _

theorem balanced_step {line : Int} {f : BlkId → LM σ Unit} (hf : ∀ b, Balanced (f b)) (n : Nat) (b : BlkId) : Balanced (stepP dbg line f n b) := by
  induction n generalizing b with
  | zero => exact balanced_fuel
  | succ n ih =>
    unfold stepP
    refine balanced_bind (balanced_deref b) fun nd => ?_
    cases nd.isSub with
    | false => exact hf b
    | true =>
      refine balanced_traced (balanced_msg n b) (balanced_bind (balanced_deref b) fun nd => ?_)
      exact balanced_bind (balanced_forKids (fun c => balanced_bind (ih c) fun _ => balanced_pure _) _) fun _ => balanced_pure _

theorem balanced_processed (b : BlkId) : Balanced (processedP (σ := σ) b) :=
  balanced_bind (balanced_deref b) fun _ => fun _ => ⟨rfl, fun _ e => by cases e⟩

theorem balanced_processKids {p : BlkId} {f : BlkId → LM σ Nat} (hf : ∀ c, Balanced (f c)) (l : List BlkId) : Balanced (processKids p f l) := by
  induction l with
  | nil => exact balanced_pure _
  | cons c cs ih =>
    unfold processKids
    refine balanced_bind (hf c) fun k => balanced_bind (balanced_processed c) fun d => ?_
    cases d with
    | true => exact balanced_bind ih fun _ => balanced_pure _
    | false => exact balanced_bind (balanced_modify fun _ => rfl) fun _ => balanced_bind ih fun _ => balanced_pure _

theorem balanced_process {act : BlkId → LM σ Bool} (hf : ∀ b, Balanced (act b)) (n : Nat) (b : BlkId) : Balanced (processP dbg act n b) := by
  induction n generalizing b with
  | zero => exact balanced_fuel
  | succ n ih =>
    unfold processP
    refine balanced_bind (balanced_deref b) fun nd => ?_
    cases nd.isSub with
    | false =>
      refine balanced_traced (balanced_msg n b) (balanced_bind (balanced_processed b) fun d => ?_)
      cases d with
      | true => exact balanced_pure _
      | false =>
        refine balanced_bind (hf b) fun r => ?_
        cases r with
        | false => exact balanced_pure _
        | true => exact balanced_bind (balanced_modify fun _ => rfl) fun _ => balanced_pure _
    | true =>
      refine balanced_traced (balanced_msg n b) (balanced_bind (balanced_processed b) fun d => ?_)
      cases d with
      | true => exact balanced_pure _
      | false => exact balanced_bind (balanced_modify fun _ => rfl) fun _ => balanced_bind (balanced_deref b) fun nd => balanced_processKids ih _

/-- C63: whatever the outcome of a call - it returns, an exception leaves it, even undefined behaviour is met on the way -, the traceback afterwards is what it was
before; in particular, the vector is never popped when it is empty. -/
theorem C63_restored (op : LOp σ) (hb : op.Balanced) (n : Nat) : Balanced (op.exec dbg n) := by
  cases op with
  | new k par name =>
    refine balanced_bind ?_ fun _ => balanced_pure _
    unfold newBlockP
    cases par with
    | none => exact fun s => ⟨rfl, fun _ e => by cases e⟩
    | some p =>
      intro s
      exact balanced_bind (balanced_link n p s.heap.next) (fun _ => balanced_pure s.heap.next)
        { s with heap := ⟨upd s.heap.node s.heap.next ⟨emend name, k, some p, []⟩, s.heap.next + 1⟩, alive := upd s.alive s.heap.next true, processed := upd s.processed s.heap.next false }
  | setParent b p =>
    refine balanced_bind (balanced_bind (balanced_deref b) fun nd => ?_) fun _ => balanced_pure _
    split
    · exact balanced_bind (balanced_fullName n b) fun _ => balanced_pure _
    · exact balanced_bind (balanced_modify fun _ => rfl) fun _ => balanced_bind (balanced_link n p b) fun _ => balanced_pure _
  | linkBlock p b => exact balanced_bind (balanced_link n p b) fun _ => balanced_pure _
  | rename b name => exact balanced_bind (balanced_deref b) fun _ => balanced_modify fun _ => rfl
  | fullName b => exact balanced_bind (balanced_fullName n b) fun _ => balanced_pure _
  | visit b cb lv m => exact balanced_bind (balanced_visit hb n b lv m) fun _ => balanced_pure _
  | mark b flag => exact balanced_mark flag n b
  | step line b f => exact balanced_step hb n b
  | process b act => exact balanced_bind (balanced_process hb n b) fun _ => balanced_pure _
  | destroy b => exact balanced_bind (balanced_deref b) fun _ => balanced_modify fun _ => rfl

/-! ## What an exception reports -/

variable {h : Heap} {al : BlkId → Bool}

/-- If the call returns, it has built and destroyed nothing and `Q` holds; if an exception leaves it, `R` holds of the exception, the traceback before the call and the
traceback in the message. -/
def Blames (h : Heap) (al : BlkId → Bool) (x : LM σ α) (Q : α → Prop) (R : Exc → List TraceInfo → List TraceInfo → Prop) : Prop :=
  ∀ s, s.heap = h → s.alive = al → match x s with
    | .ok a s' => s'.heap = h ∧ s'.alive = al ∧ s'.trace = s.trace ∧ Q a
    | .error (.exc e) s' => R e s.trace s'.thrown
    | .error _ _ => True

variable {R : Exc → List TraceInfo → List TraceInfo → Prop}

theorem blames_bind {x : LM σ α} {f : α → LM σ β} {P : α → Prop} {Q : β → Prop} (hx : Blames h al x P R) (hf : ∀ a, P a → Blames h al (f a) Q R) :
    Blames h al (x >>= f) Q R := by
  intro s h1 h2
  rw [lm_bind]
  have k := hx s h1 h2
  revert k
  cases x s with
  | ok a s' =>
    rintro ⟨k1, k2, k3, k4⟩
    have j := hf a k4 s' k1 k2
    simp only
    revert j
    cases f a s' with
    | ok b s2 => exact fun j => ⟨j.1, j.2.1, j.2.2.1.trans k3, j.2.2.2⟩
    | error e s2 => cases e <;> simp only [k3] <;> exact fun j => j
  | error e s' => cases e <;> exact fun k => k

theorem blames_pure {a : α} {Q : α → Prop} (hq : Q a) : Blames h al (pure a : LM σ α) Q R := fun _ h1 h2 => ⟨h1, h2, rfl, hq⟩

theorem blames_fuel {Q : α → Prop} : Blames h al (throw .fuel : LM σ α) Q R := fun _ _ _ => trivial

theorem blames_weaken {x : LM σ α} {P Q : α → Prop} (hx : Blames h al x P R) (hq : ∀ a, P a → Q a) : Blames h al x Q R := by
  intro s h1 h2
  have k := hx s h1 h2
  revert k
  cases x s with
  | ok a s' => exact fun k => ⟨k.1, k.2.1, k.2.2.1, hq a k.2.2.2⟩
  | error e s' => cases e <;> exact fun k => k

theorem blames_deref (b : BlkId) : Blames h al (deref (σ := σ) b) (fun nd => nd = h.node b) R := by
  intro s h1 h2
  unfold deref
  by_cases hb : s.alive b = true
  · rw [if_pos hb]; exact ⟨h1, h2, rfl, by rw [h1]⟩
  · rw [if_neg hb]; trivial

theorem blames_modify {f : Store σ → Store σ} (h1 : ∀ s, (f s).heap = s.heap) (h2 : ∀ s, (f s).alive = s.alive) (h3 : ∀ s, (f s).trace = s.trace) :
    Blames h al (modify f : LM σ Unit) (fun _ => True) R := fun s k1 k2 => ⟨(h1 s).trans k1, (h2 s).trans k2, h3 s, trivial⟩

theorem blames_fullName (n : Nat) (b : BlkId) : Blames h al (fullNameP (σ := σ) n b) (fun v => fullName h n b = some v) R := by
  induction n generalizing b with
  | zero => exact blames_fuel
  | succ n ih =>
    unfold fullNameP
    refine blames_bind (blames_deref b) fun nd hnd => ?_
    subst hnd
    cases hp : (h.node b).parent with
    | none => exact blames_pure (by unfold fullName; rw [show h.parent b = none from hp])
    | some p =>
      refine blames_bind (ih p) fun v hv => blames_pure ?_
      unfold fullName
      rw [show h.parent b = some p from hp]; simp only [hv]; rfl

theorem blames_msg (n : Nat) (b : BlkId) : Blames h al (blockMsg (σ := σ) n b) (fun m => ∃ v, fullName h n b = some v ∧ m = str "block: " ++ v.name) R :=
  blames_bind (blames_fullName n b) fun v hv => blames_pure ⟨v, hv, rfl⟩

theorem blames_traced {file : String} {line : Int} {n : Nat} {b : BlkId} {x : LM σ α} {Q : α → Prop} {R' : Exc → List TraceInfo → List TraceInfo → Prop}
    (hx : Blames h al x Q R') (hR : ∀ t e tr th, Entry h (file, line) b t → R' e (t :: tr) th → R e tr th) :
    Blames h al (traced true file line (blockMsg (σ := σ) n b) x) Q R := by
  intro s h1 h2
  unfold traced
  simp only [if_true]
  rw [lm_bind]
  have k := blames_msg (R := fun _ _ _ => False) n b { s with trace := {} :: s.trace } h1 h2
  revert k
  cases blockMsg n b { s with trace := {} :: s.trace } with
  | error e s' =>
    cases e with
    | exc e => exact fun k => k.elim
    | ub u => intro _; simp only [tracePop]; cases s'.trace <;> trivial
    | fuel => intro _; simp only [tracePop]; cases s'.trace <;> trivial
  | ok m s' =>
    rintro ⟨k1, k2, k3, v, k4, rfl⟩
    simp only
    rw [lm_bind]
    unfold traceUpdate
    rw [k3]
    have hne : str "block: " ++ v.name ≠ [] := by intro e; have := congrArg List.length e; simp [str] at this
    simp only [hne, ne_eq, not_false_eq_true, if_true]
    have j := hx { s' with trace := { file := file, line := line, msg := str "block: " ++ v.name } :: s.trace } k1 k2
    revert j
    cases x { s' with trace := { file := file, line := line, msg := str "block: " ++ v.name } :: s.trace } with
    | ok a s2 => rintro ⟨j1, j2, j3, j4⟩; simp only [tracePop, j3]; exact ⟨j1, j2, trivial, j4⟩
    | error e s2 =>
      cases e with
      | exc e =>
        intro j
        have hr : R e s.trace s2.thrown := hR _ e s.trace s2.thrown ⟨n, v, k4, rfl⟩ j
        simp only [tracePop]
        cases s2.trace
        · trivial
        · exact hr
      | ub u => intro _; simp only [tracePop]; cases s2.trace <;> trivial
      | fuel => intro _; simp only [tracePop]; cases s2.trace <;> trivial

theorem blames_forKids {f : BlkId → LM σ Bool} {l : List BlkId} (hf : ∀ c ∈ l, Blames h al (f c) (fun _ => True) R) : Blames h al (forKids f l) (fun _ => True) R := by
  induction l with
  | nil => exact blames_pure trivial
  | cons c cs ih =>
    unfold forKids
    refine blames_bind (hf c (.head _)) fun r _ => ?_
    cases r with
    | false => exact blames_pure trivial
    | true => exact ih fun d hd => hf d (.tail _ hd)

theorem blames_callback {x : LM σ α} (hx : Quietly x) (hR : ∀ e s s', x s = .error (.exc e) s' → R e s.trace s'.thrown) : Blames h al x (fun _ => True) R := by
  intro s h1 h2
  have k1 := hx s
  have k2 := fun e => hR e s
  revert k1 k2
  cases x s with
  | ok a s' => exact fun k _ => have := k a s' rfl; ⟨this.1.trans h1, this.2.1.trans h2, this.2.2, trivial⟩
  | error e s' =>
    cases e with
    | exc e => exact fun _ k => k e s' rfl
    | ub u => exact fun _ _ => trivial
    | fuel => exact fun _ _ => trivial

/-- The rule for the loop over the children. -/
theorem route_down {α : Type} {own : BlkId → List (String × Int)} {up : String × Int} {b c : BlkId} (hc : c ∈ h.kids b) {cb : BlkId → LM σ α} {t : TraceInfo} {e : Exc} {tr th : List TraceInfo}
    (ht : Entry h up b t) (hr : ∃ x l, Route h own up c x l ∧ RaisedBy cb e x l (t :: tr) th) : ∃ x l, Route h own up b x l ∧ RaisedBy cb e x l tr th := by
  obtain ⟨x, l, h1, s, s', h2, h3, h4⟩ := hr
  exact ⟨x, l ++ [t], .down hc h1 ht, s, s', h2, by rw [h3]; simp, h4⟩

/-- C63, `visit`: if an exception leaves `visit` of `b`, it came from a call of the visitor for some block `x` below `b` (or `b` itself), and the traceback at that moment
- which `pooya_verify` puts in the message - consisted of the entries for `x`, then one for each submodel from the parent of `x` up to `b`, each with the full name of the
block, then what had been there before. -/
theorem C63_visit (cb : BlkId → Nat → LM σ Bool) (hcb : ∀ b l, Quietly (cb b l)) {n : Nat} {b : BlkId} {lv m : Nat} {s s' : Store σ} {e : Exc}
    (he : visitP true cb n b lv m s = .error (.exc e) s') :
    ∃ k x l, Route s.heap (visitPlaces s.heap) ("submodel.cpp", 60) b x l ∧ RaisedBy (fun b => cb b k) e x l s.trace s'.thrown := by
  have key : ∀ (h : Heap) (al : BlkId → Bool), Blames h al (visitP true cb n b lv m) (fun _ => True)
      (fun e tr th => ∃ k x l, Route h (visitPlaces h) ("submodel.cpp", 60) b x l ∧ RaisedBy (fun b => cb b k) e x l tr th) := by
    intro h al
    clear he
    induction n generalizing b lv with
    | zero => exact blames_fuel
    | succ n ih =>
      unfold visitP
      refine blames_bind (blames_deref b) fun nd hnd => ?_
      subst hnd
      have hbase : Blames h al (traced true "block.hpp" 103 (blockMsg (σ := σ) n b) (if lv > m then pure true else cb b lv)) (fun _ => True)
          (fun e tr th => ∃ t, Entry h ("block.hpp", 103) b t ∧ RaisedBy (fun b => cb b lv) e b [t] tr th) := by
        refine blames_traced (R' := fun e tr th => RaisedBy (fun b => cb b lv) e b [] tr th) ?_ ?_
        · split
          · exact blames_pure trivial
          · exact blames_callback (hcb b lv) fun e s s' hs => ⟨s, s', hs, rfl, rfl⟩
        · rintro t e tr th ht ⟨s, s', k1, k2, k3⟩
          exact ⟨t, ht, s, s', k1, k2, k3⟩
      simp only
      cases hs : (h.node b).isSub with
      | false =>
        intro s h1 h2
        have k := hbase s h1 h2
        revert k
        simp only [Bool.false_eq_true, if_false]
        cases traced true "block.hpp" 103 (blockMsg (σ := σ) n b) (if lv > m then pure true else cb b lv) s with
        | ok a s' => exact fun k => k
        | error e s' =>
          cases e with
          | exc e =>
            rintro ⟨t, ht, k⟩
            exact ⟨lv, b, [t], .here (by unfold visitPlaces; rw [hs]; exact .cons ht .nil), k⟩
          | ub u => exact fun _ => trivial
          | fuel => exact fun _ => trivial
      | true =>
        simp only [if_true]
        refine blames_traced (R' := fun e tr th => (∃ t, Entry h ("block.hpp", 103) b t ∧ RaisedBy (fun b => cb b lv) e b [t] tr th) ∨
          ∃ k, ∃ c ∈ h.kids b, ∃ x l, Route h (visitPlaces h) ("submodel.cpp", 60) c x l ∧ RaisedBy (fun b => cb b k) e x l tr th) ?_ ?_
        · by_cases hl : lv > m
          · rw [if_pos hl]; exact blames_pure trivial
          · rw [if_neg hl]
            refine blames_bind (P := fun _ => True) ?_ fun r _ => ?_
            · intro s h1 h2
              have k := hbase s h1 h2
              rw [if_neg hl] at k
              revert k
              simp only [if_neg hl]
              cases traced true "block.hpp" 103 (blockMsg (σ := σ) n b) (cb b lv) s with
              | ok a s' => exact fun k => k
              | error e s' =>
                cases e with
                | exc e => exact fun k => .inl k
                | ub u => exact fun _ => trivial
                | fuel => exact fun _ => trivial
            · cases r with
              | false => exact blames_pure trivial
              | true =>
                simp only [Bool.not_true, Bool.false_eq_true, if_false]
                split
                · refine blames_bind (blames_deref b) fun nd hnd => ?_
                  subst hnd
                  refine blames_forKids fun c hc => ?_
                  intro s h1 h2
                  have k := ih (b := c) (lv := lv + 1) s h1 h2
                  revert k
                  cases visitP true cb n c (lv + 1) m s with
                  | ok a s' => exact fun k => k
                  | error e s' =>
                    cases e with
                    | exc e => rintro ⟨k, x, l, h1, h2⟩; exact .inr ⟨k, c, hc, x, l, h1, h2⟩
                    | ub u => exact fun _ => trivial
                    | fuel => exact fun _ => trivial
                · exact blames_pure trivial
        · rintro t e tr th ht (⟨u, hu, s, s', k1, k2, k3⟩ | ⟨k, c, hc, hx⟩)
          · exact ⟨lv, b, [u, t], .here (by unfold visitPlaces; rw [hs]; exact .cons hu (.cons ht .nil)), s, s', k1, by rw [k2]; rfl, k3⟩
          · exact ⟨k, route_down hc ht hx⟩
  have := key s.heap s.alive s rfl rfl
  rw [he] at this
  exact this

/-- C63, `process`: if an exception leaves `process` of `b`, it came from the activation function (or the test of readiness) of some leaf `x` below `b`, called when the
traceback had an entry for `x` and one for each submodel from the parent of `x` up to `b`. -/
theorem C63_process (act : BlkId → LM σ Bool) (hact : ∀ b, Quietly (act b)) {n : Nat} {b : BlkId} {s s' : Store σ} {e : Exc}
    (he : processP true act n b s = .error (.exc e) s') :
    ∃ x l, Route s.heap (fun _ => [("leaf.cpp", 25)]) ("submodel.cpp", 39) b x l ∧ RaisedBy act e x l s.trace s'.thrown := by
  have key : ∀ (h : Heap) (al : BlkId → Bool), Blames h al (processP true act n b) (fun _ => True)
      (fun e tr th => ∃ x l, Route h (fun _ => [("leaf.cpp", 25)]) ("submodel.cpp", 39) b x l ∧ RaisedBy act e x l tr th) := by
    intro h al
    clear he
    have hproc : ∀ (R : Exc → List TraceInfo → List TraceInfo → Prop) b, Blames h al (processedP (σ := σ) b) (fun _ => True) R :=
      fun R b => blames_bind (blames_deref b) fun _ _ => fun _ h1 h2 => ⟨h1, h2, rfl, trivial⟩
    induction n generalizing b with
    | zero => exact blames_fuel
    | succ n ih =>
      have hmod : ∀ (R : Exc → List TraceInfo → List TraceInfo → Prop) b v,
          Blames h al (modify (fun s : Store σ => { s with processed := upd s.processed b v }) : LM σ Unit) (fun _ => True) R :=
        fun R b v => blames_modify (fun _ => rfl) (fun _ => rfl) (fun _ => rfl)
      unfold processP
      refine blames_bind (blames_deref b) fun nd hnd => ?_
      subst hnd
      cases hs : (h.node b).isSub with
      | false =>
        simp only [Bool.false_eq_true, if_false]
        refine blames_traced (R' := fun e tr th => RaisedBy act e b [] tr th) ?_ ?_
        · refine blames_bind (hproc _ b) fun d _ => ?_
          cases d with
          | true => exact blames_pure trivial
          | false =>
            refine blames_bind (blames_callback (hact b) fun e s s' hs => ⟨s, s', hs, rfl, rfl⟩) fun r _ => ?_
            cases r with
            | false => exact blames_pure trivial
            | true => exact blames_bind (hmod _ b true) fun _ _ => blames_pure trivial
        · rintro t e tr th ht ⟨s, s', k1, k2, k3⟩
          exact ⟨b, [t], .here (.cons ht .nil), s, s', k1, k2, k3⟩
      | true =>
        simp only [if_true]
        refine blames_traced (R' := fun e tr th => ∃ c ∈ h.kids b, ∃ x l, Route h (fun _ => [("leaf.cpp", 25)]) ("submodel.cpp", 39) c x l ∧ RaisedBy act e x l tr th) ?_ ?_
        · refine blames_bind (hproc _ b) fun d _ => ?_
          cases d with
          | true => exact blames_pure trivial
          | false =>
            refine blames_bind (hmod _ b true) fun _ _ => blames_bind (blames_deref b) fun nd hnd => ?_
            subst hnd
            have loop : ∀ l : List BlkId, (∀ c ∈ l, c ∈ h.kids b) → Blames h al (processKids b (processP true act n) l) (fun _ => True)
                (fun e tr th => ∃ c ∈ h.kids b, ∃ x l, Route h (fun _ => [("leaf.cpp", 25)]) ("submodel.cpp", 39) c x l ∧ RaisedBy act e x l tr th) := by
              intro l
              induction l with
              | nil => exact fun _ => blames_pure trivial
              | cons c cs ihl =>
                intro hl
                unfold processKids
                refine blames_bind (P := fun _ => True) ?_ fun k _ => ?_
                · intro s h1 h2
                  have k := ih (b := c) s h1 h2
                  revert k
                  cases processP true act n c s with
                  | ok a s' => exact fun k => k
                  | error e s' =>
                    cases e with
                    | exc e => exact fun k => ⟨c, hl c (.head _), k⟩
                    | ub u => exact fun _ => trivial
                    | fuel => exact fun _ => trivial
                · refine blames_bind (hproc _ c) fun d _ => ?_
                  have hr := ihl fun d hd => hl d (.tail _ hd)
                  cases d with
                  | true => exact blames_bind hr fun _ _ => blames_pure trivial
                  | false => exact blames_bind (hmod _ b false) fun _ _ => blames_bind hr fun _ _ => blames_pure trivial
            exact loop _ fun c hc => hc
        · rintro t e tr th ht ⟨c, hc, hx⟩
          exact route_down hc ht hx
  have := key s.heap s.alive s rfl rfl
  rw [he] at this
  exact this

/-- C63, `pre_step` and `post_step`: the traceback has one entry for each submodel from the parent of the leaf up. -/
theorem C63_step (line : Int) (f : BlkId → LM σ Unit) (hf : ∀ b, Quietly (f b)) {n : Nat} {b : BlkId} {s s' : Store σ} {e : Exc}
    (he : stepP true line f n b s = .error (.exc e) s') :
    ∃ x l, Route s.heap (fun _ => []) ("submodel.hpp", line) b x l ∧ RaisedBy f e x l s.trace s'.thrown := by
  have key : ∀ (h : Heap) (al : BlkId → Bool), Blames h al (stepP true line f n b) (fun _ => True)
      (fun e tr th => ∃ x l, Route h (fun _ => []) ("submodel.hpp", line) b x l ∧ RaisedBy f e x l tr th) := by
    intro h al
    clear he
    induction n generalizing b with
    | zero => exact blames_fuel
    | succ n ih =>
      unfold stepP
      refine blames_bind (blames_deref b) fun nd hnd => ?_
      subst hnd
      cases hs : (h.node b).isSub with
      | false =>
        simp only [Bool.false_eq_true, if_false]
        exact blames_callback (hf b) fun e s s' hs => ⟨b, [], .here .nil, s, s', hs, rfl, rfl⟩
      | true =>
        simp only [if_true]
        refine blames_traced (R' := fun e tr th => ∃ c ∈ h.kids b, ∃ x l, Route h (fun _ => []) ("submodel.hpp", line) c x l ∧ RaisedBy f e x l tr th) ?_ ?_
        · refine blames_bind (blames_deref b) fun nd hnd => ?_
          subst hnd
          refine blames_bind (blames_forKids fun c hc => ?_) fun _ _ => blames_pure trivial
          refine blames_bind (P := fun _ => True) ?_ fun _ _ => blames_pure trivial
          intro s h1 h2
          have k := ih (b := c) s h1 h2
          revert k
          cases stepP true line f n c s with
          | ok a s' => exact fun k => k
          | error e s' =>
            cases e with
            | exc e => exact fun k => ⟨c, hc, k⟩
            | ub u => exact fun _ => trivial
            | fuel => exact fun _ => trivial
        · rintro t e tr th ht ⟨c, hc, hx⟩
          exact route_down hc ht hx
  have := key s.heap s.alive s rfl rfl
  rw [he] at this
  exact this

/-- If the activation functions raise exceptions through `pooya_verify` alone (with no traced scope of their own), then the message of an exception that leaves `process`
lists exactly the calls from the leaf up to `b`, and then those that had been there before; afterwards the traceback is as before. -/
theorem C63_message (act : BlkId → LM σ Bool) (hact : ∀ b, Quietly (act b)) (hb : ∀ b, Balanced (act b)) (ht : ∀ b s e s', act b s = .error (.exc e) s' → s'.thrown = s.trace)
    {n : Nat} {b : BlkId} {s s' : Store σ} {e : Exc} (he : processP true act n b s = .error (.exc e) s') :
    s'.trace = s.trace ∧ ∃ x l, Route s.heap (fun _ => [("leaf.cpp", 25)]) ("submodel.cpp", 39) b x l ∧ s'.thrown = l ++ s.trace := by
  obtain ⟨x, l, h1, s1, s2, h2, h3, h4⟩ := C63_process act hact he
  refine ⟨?_, x, l, h1, by rw [← h4, ht x s1 e s2 h2, h3]⟩
  have := (balanced_process (dbg := true) (n := n) (b := b) hb s).1
  rw [he] at this
  exact this

/-- The traceback in the message of the exception that left a call. -/
def report (r : EStateM.Result Err (Store σ) Unit) : List (String × Int × Str) :=
  match r with
  | .error (.exc _) s => s.thrown.map fun t => (t.file, t.line, t.msg)
  | _ => []

/-- A block that fails: `pooya_verify(false, ...)` in its activation function. -/
def failing (b : BlkId) : LM Unit Bool := if b = 1 then throwP true .debugVerify else pure true

theorem failing_quiet (b : BlkId) : Quietly (failing b) := by
  intro s a s' h
  unfold failing at h
  split at h
  · cases h
  · cases h; exact ⟨rfl, rfl, rfl⟩

theorem failing_balanced (b : BlkId) : Balanced (failing b) := by
  intro s
  unfold failing
  split
  · exact ⟨rfl, fun _ e => by cases e⟩
  · exact ⟨rfl, fun _ e => by cases e⟩

/-- The gain of `C62.built` fails while its model is processed, in a program whose traceback has an entry already: the message names the gain and the model, and the
traceback is left with that entry (`C63_restored`, `C63_process`, `C63_message`, `C63_visit`, `C63_step`). -/
example : (∀ b, Quietly (failing b)) ∧ (LOp.process 0 failing).Balanced ∧ (∀ b s e s', failing b s = .error (.exc e) s' → s'.thrown = s.trace) ∧
    report (LOp.exec true 5 (.process 0 failing) { C62.built true with trace := [⟨"main.cpp", 7, []⟩] }) =
      [("leaf.cpp", 25, str "block: /m/g"), ("submodel.cpp", 39, str "block: /m"), ("main.cpp", 7, [])] ∧
    report (LOp.exec true 5 (.visit 0 (fun b _ => failing b) 0 9) (C62.built true)) =
      [("block.hpp", 103, str "block: /m/g"), ("submodel.cpp", 60, str "block: /m")] ∧
    report (LOp.exec true 5 (.step 40 0 fun b => do let _ ← failing b; pure ()) (C62.built true)) = [("submodel.hpp", 40, str "block: /m")] ∧
    (C62.next (LOp.exec true 5 (.process 0 failing) { C62.built true with trace := [⟨"main.cpp", 7, []⟩] })).trace = [⟨"main.cpp", 7, []⟩] := by
  refine ⟨failing_quiet, fun b => failing_balanced b, fun b s e s' h => ?_, by decide +kernel, by decide +kernel, by decide +kernel, by decide +kernel⟩
  unfold failing at h
  split at h
  · cases h; rfl
  · cases h

end Pooya.C63
