import Verif.Spec.Lifetime
import Verif.Props.C12

namespace Pooya

variable {σ : Type}

set_option linter.unusedSectionVars false

theorem lm_bind {α β : Type} (x : LM σ α) (f : α → LM σ β) (s : Store σ) :
    (x >>= f) s = match x s with | .ok a s' => f a s' | .error e s' => .error e s' := by
  show EStateM.bind x f s = _
  unfold EStateM.bind
  cases x s <;> rfl

theorem lm_pure {α : Type} (a : α) (s : Store σ) : (pure a : LM σ α) s = .ok a s := rfl

/-- What a call leaves that neither builds nor destroys blocks: `heap`, `alive`, `trace` as before; no undefined behaviour. -/
def Steady (h : Heap) (al : BlkId → Bool) {α : Type} (x : LM σ α) (Q : α → Prop) : Prop :=
  ∀ s, s.heap = h → s.alive = al → match x s with
    | .ok a s' => s'.heap = h ∧ s'.alive = al ∧ s'.trace = s.trace ∧ Q a
    | .error (.ub _) _ => False
    | .error _ s' => s'.heap = h ∧ s'.alive = al ∧ s'.trace = s.trace

variable {h : Heap} {al : BlkId → Bool} {α β : Type}

theorem Steady.bind {x : LM σ α} {f : α → LM σ β} {Q : α → Prop} {R : β → Prop} (hx : Steady h al x Q) (hf : ∀ a, Q a → Steady h al (f a) R) :
    Steady h al (x >>= f) R := by
  intro s h1 h2
  rw [lm_bind]
  have k := hx s h1 h2
  revert k
  cases x s with
  | ok a s' =>
    rintro ⟨k1, k2, k3, k4⟩
    have k' := hf a k4 s' k1 k2
    simp only
    revert k'
    cases f a s' with
    | ok b s2 => rintro ⟨j1, j2, j3, j4⟩; exact ⟨j1, j2, j3.trans k3, j4⟩
    | error e s2 =>
      cases e with
      | ub u => exact fun k => k
      | exc e => rintro ⟨j1, j2, j3⟩; exact ⟨j1, j2, j3.trans k3⟩
      | fuel => rintro ⟨j1, j2, j3⟩; exact ⟨j1, j2, j3.trans k3⟩
  | error e s' => cases e <;> exact fun k => k

theorem Steady.pure {a : α} {Q : α → Prop} (hq : Q a) : Steady h al (pure a : LM σ α) Q := fun _ h1 h2 => ⟨h1, h2, rfl, hq⟩

theorem Steady.fuel {Q : α → Prop} : Steady h al (throw .fuel : LM σ α) Q := fun _ h1 h2 => ⟨h1, h2, rfl⟩

theorem Steady.weaken {x : LM σ α} {Q R : α → Prop} (hx : Steady h al x Q) (hq : ∀ a, Q a → R a) : Steady h al x R := by
  intro s h1 h2
  have k := hx s h1 h2
  revert k
  cases x s with
  | ok a s' => rintro ⟨k1, k2, k3, k4⟩; exact ⟨k1, k2, k3, hq a k4⟩
  | error e s' => cases e <;> exact fun k => k

theorem Tame.steady {x : LM σ α} (hx : Tame x) : Steady h al x (fun _ => True) := by
  intro s h1 h2
  have k := hx s
  revert k
  cases x s with
  | ok a s' => rintro ⟨k1, k2, k3⟩; exact ⟨k1.trans h1, k2.trans h2, k3, trivial⟩
  | error e s' =>
    cases e with
    | ub u => exact fun k => k
    | exc e => rintro ⟨k1, k2, k3⟩; exact ⟨k1.trans h1, k2.trans h2, k3⟩
    | fuel => rintro ⟨k1, k2, k3⟩; exact ⟨k1.trans h1, k2.trans h2, k3⟩

theorem Steady.deref {b : BlkId} (hb : al b = true) : Steady h al (deref (σ := σ) b) (fun nd => nd = h.node b) := by
  intro s h1 h2
  unfold Pooya.deref
  rw [h2, if_pos hb]
  exact ⟨h1, h2, rfl, by rw [h1]⟩

theorem Steady.modify {f : Store σ → Store σ} (h1 : ∀ s, (f s).heap = s.heap) (h2 : ∀ s, (f s).alive = s.alive) (h3 : ∀ s, (f s).trace = s.trace) :
    Steady h al (modify f : LM σ Unit) (fun _ => True) := fun s k1 k2 => ⟨(h1 s).trans k1, (h2 s).trans k2, h3 s, trivial⟩

theorem Steady.fullName {n : Nat} {b : BlkId} (hb : ∀ x, h.Above b x → al x = true) : Steady h al (fullNameP (σ := σ) n b) (fun v => fullName h n b = some v) := by
  induction n generalizing b with
  | zero => exact .fuel
  | succ n ih =>
    unfold fullNameP
    refine (Steady.deref (hb b (.self b))).bind fun nd hnd => ?_
    subst hnd
    cases hp : (h.node b).parent with
    | none => exact .pure (by unfold Pooya.fullName; rw [show h.parent b = none from hp])
    | some p =>
      refine (ih (b := p) fun x hx => hb x (.up hp hx)).bind fun v hv => .pure ?_
      unfold Pooya.fullName
      rw [show h.parent b = some p from hp]; simp only [hv]; rfl

theorem Steady.blockMsg {n : Nat} {b : BlkId} (hb : ∀ x, h.Above b x → al x = true) :
    Steady h al (Pooya.blockMsg (σ := σ) n b) (fun m => ∃ v, Pooya.fullName h n b = some v ∧ m = str "block: " ++ v.name) :=
  (Steady.fullName hb).bind fun v hv => .pure ⟨v, hv, rfl⟩

theorem Steady.traced {dbg : Bool} {file : String} {line : Int} {msg : LM σ Str} {x : LM σ α} {Q : α → Prop} (hm : dbg = true → Steady h al msg (fun _ => True))
    (hx : Steady h al x Q) : Steady h al (traced dbg file line msg x) Q := by
  intro s h1 h2
  unfold Pooya.traced
  cases dbg with
  | false => exact hx s h1 h2
  | true =>
    simp only [if_true]
    rw [lm_bind]
    have k := hm rfl { s with trace := {} :: s.trace } h1 h2
    revert k
    cases msg { s with trace := {} :: s.trace } with
    | error e s' =>
      cases e with
      | ub u => exact fun k => k.elim
      | exc e => rintro ⟨k1, k2, k3⟩; simp only [tracePop, k3]; exact ⟨k1, k2, trivial⟩
      | fuel => rintro ⟨k1, k2, k3⟩; simp only [tracePop, k3]; exact ⟨k1, k2, trivial⟩
    | ok m s' =>
      rintro ⟨k1, k2, k3, -⟩
      simp only
      rw [lm_bind]
      unfold traceUpdate
      rw [k3]
      simp only
      have k' := hx { s' with trace := { file := file, line := line, msg := if m ≠ [] then m else ({} : TraceInfo).msg } :: s.trace } k1 k2
      revert k'
      cases x { s' with trace := { file := file, line := line, msg := if m ≠ [] then m else ({} : TraceInfo).msg } :: s.trace } with
      | ok b s2 => rintro ⟨j1, j2, j3, j4⟩; simp only [tracePop, j3]; exact ⟨j1, j2, trivial, j4⟩
      | error e s2 =>
        cases e with
        | ub u => exact fun k => k.elim
        | exc e => rintro ⟨j1, j2, j3⟩; simp only [tracePop, j3]; exact ⟨j1, j2, trivial⟩
        | fuel => rintro ⟨j1, j2, j3⟩; simp only [tracePop, j3]; exact ⟨j1, j2, trivial⟩

theorem Steady.forKids {f : BlkId → LM σ Bool} {l : List BlkId} (hf : ∀ c ∈ l, Steady h al (f c) (fun _ => True)) : Steady h al (forKids f l) (fun _ => True) := by
  induction l with
  | nil => exact .pure trivial
  | cons c cs ih =>
    unfold Pooya.forKids
    refine (hf c (.head _)).bind fun r _ => ?_
    cases r with
    | false => exact .pure trivial
    | true => exact ih fun d hd => hf d (.tail _ hd)

/-- The blocks above a child of `b` are that child and those above `b`. -/
theorem above_kid (hc : ∀ p b, b ∈ h.kids p → h.parent b = some p) {b c : BlkId} (hb : c ∈ h.kids b) {x : BlkId} (hx : h.Above c x) : x = c ∨ h.Above b x := by
  cases hx with
  | self => exact .inl rfl
  | up hp hx =>
    rw [hc b c hb] at hp
    cases hp
    exact .inr hx

/-- Everything a traversal of `b` follows pointers to has not been destroyed. -/
structure Clear (dbg : Bool) (h : Heap) (al : BlkId → Bool) (b : BlkId) : Prop where
  below : ∀ x, h.Below b x → al x = true
  above : dbg = true → ∀ x, h.Above b x → al x = true

theorem Clear.kid {dbg : Bool} {b c : BlkId} (hk : ∀ p b, b ∈ h.kids p → h.parent b = some p) (hc : Clear dbg h al b) (hm : c ∈ h.kids b) : Clear dbg h al c :=
  ⟨fun x hx => hc.below x (.kid hm hx), fun hd x hx => by
    rcases above_kid hk hm hx with rfl | hx
    · exact hc.below _ (.kid hm (.self _))
    · exact hc.above hd x hx⟩

theorem Clear.msg {dbg : Bool} {b : BlkId} (hc : Clear dbg h al b) {n : Nat} : dbg = true → Steady h al (Pooya.blockMsg (σ := σ) n b) (fun _ => True) :=
  fun hd => (Steady.blockMsg (hc.above hd)).weaken fun _ _ => trivial

variable {dbg : Bool}

theorem Steady.visit (hk : ∀ p b, b ∈ h.kids p → h.parent b = some p) {cb : BlkId → Nat → LM σ Bool} (hcb : ∀ b l, Steady h al (cb b l) (fun _ => True)) {n : Nat} {b : BlkId} {lv m : Nat}
    (hc : Clear dbg h al b) : Steady h al (visitP dbg cb n b lv m) (fun _ => True) := by
  induction n generalizing b lv with
  | zero => exact .fuel
  | succ n ih =>
    unfold visitP
    refine (Steady.deref (hc.below b (.self b))).bind fun nd hnd => ?_
    subst hnd
    have hbase : Steady h al (Pooya.traced dbg "block.hpp" 103 (Pooya.blockMsg (σ := σ) n b) (if lv > m then Pure.pure true else cb b lv)) (fun _ => True) := by
      refine Steady.traced hc.msg ?_
      split
      · exact .pure trivial
      · exact hcb b lv
    simp only
    cases (h.node b).isSub with
    | false => exact hbase
    | true =>
      refine Steady.traced hc.msg ?_
      by_cases hl : lv > m
      · rw [if_pos hl]; exact .pure trivial
      · rw [if_neg hl]
        refine hbase.bind fun r _ => ?_
        cases r with
        | false => exact .pure trivial
        | true =>
          simp only [Bool.not_true, Bool.false_eq_true, if_false]
          split
          · refine (Steady.deref (hc.below b (.self b))).bind fun nd hnd => ?_
            subst hnd
            exact Steady.forKids fun c hm => ih (hc.kid hk hm)
          · exact .pure trivial

theorem Steady.mark {flag : BlkId → Bool} (hk : ∀ p b, b ∈ h.kids p → h.parent b = some p) {n : Nat} {b : BlkId} (hc : Clear dbg h al b) : Steady h al (markP (σ := σ) dbg flag n b) (fun _ => True) := by
  induction n generalizing b with
  | zero => exact .fuel
  | succ n ih =>
    unfold markP
    refine (Steady.deref (hc.below b (.self b))).bind fun nd hnd => ?_
    subst hnd
    have hmod : Steady h al (_root_.modify (fun s : Store σ => { s with processed := upd s.processed b false }) : LM σ Unit) (fun _ => True) :=
      Steady.modify (fun _ => rfl) (fun _ => rfl) (fun _ => rfl)
    cases (h.node b).isSub with
    | false => exact hmod
    | true =>
      refine Steady.traced hc.msg ?_
      refine (Steady.deref (hc.below b (.self b))).bind fun nd hnd => ?_
      subst hnd
      refine hmod.bind fun _ _ => ?_
      refine (Steady.forKids fun c hm => ?_).bind fun _ _ => .pure trivial
      exact (ih (hc.kid hk hm)).bind fun _ _ => .pure trivial

theorem Steady.step (hk : ∀ p b, b ∈ h.kids p → h.parent b = some p) {line : Int} {f : BlkId → LM σ Unit} (hf : ∀ b, Steady h al (f b) (fun _ => True)) {n : Nat} {b : BlkId}
    (hc : Clear dbg h al b) : Steady h al (stepP dbg line f n b) (fun _ => True) := by
  induction n generalizing b with
  | zero => exact .fuel
  | succ n ih =>
    unfold stepP
    refine (Steady.deref (hc.below b (.self b))).bind fun nd hnd => ?_
    subst hnd
    cases (h.node b).isSub with
    | false => exact hf b
    | true =>
      refine Steady.traced hc.msg ?_
      refine (Steady.deref (hc.below b (.self b))).bind fun nd hnd => ?_
      subst hnd
      refine (Steady.forKids fun c hm => ?_).bind fun _ _ => .pure trivial
      exact (ih (hc.kid hk hm)).bind fun _ _ => .pure trivial

theorem Steady.processed {b : BlkId} (hb : al b = true) : Steady h al (processedP (σ := σ) b) (fun _ => True) :=
  (Steady.deref hb).bind fun _ _ => fun _ h1 h2 => ⟨h1, h2, rfl, trivial⟩

theorem Steady.processKids {p : BlkId} {f : BlkId → LM σ Nat} {l : List BlkId} (hf : ∀ c ∈ l, Steady h al (f c) (fun _ => True)) (hl : ∀ c ∈ l, al c = true) :
    Steady h al (processKids p f l) (fun _ => True) := by
  induction l with
  | nil => exact .pure trivial
  | cons c cs ih =>
    unfold Pooya.processKids
    refine (hf c (.head _)).bind fun k _ => (Steady.processed (hl c (.head _))).bind fun d _ => ?_
    have hr := ih (fun d hd => hf d (.tail _ hd)) (fun d hd => hl d (.tail _ hd))
    cases d with
    | true => exact hr.bind fun r _ => .pure trivial
    | false =>
      refine Steady.bind (Q := fun _ => True) (Steady.modify (fun _ => rfl) (fun _ => rfl) (fun _ => rfl)) fun _ _ => ?_
      exact hr.bind fun r _ => .pure trivial

theorem Steady.process (hk : ∀ p b, b ∈ h.kids p → h.parent b = some p) {act : BlkId → LM σ Bool} (hf : ∀ b, Steady h al (act b) (fun _ => True)) {n : Nat} {b : BlkId}
    (hc : Clear dbg h al b) : Steady h al (processP dbg act n b) (fun _ => True) := by
  induction n generalizing b with
  | zero => exact .fuel
  | succ n ih =>
    have hb := hc.below b (.self b)
    unfold processP
    refine (Steady.deref hb).bind fun nd hnd => ?_
    subst hnd
    have hmod : ∀ v, Steady h al (_root_.modify (fun s : Store σ => { s with processed := upd s.processed b v }) : LM σ Unit) (fun _ => True) :=
      fun v => Steady.modify (fun _ => rfl) (fun _ => rfl) (fun _ => rfl)
    cases (h.node b).isSub with
    | false =>
      refine Steady.traced hc.msg ((Steady.processed hb).bind fun d _ => ?_)
      cases d with
      | true => exact .pure trivial
      | false =>
        refine (hf b).bind fun r _ => ?_
        cases r with
        | false => exact .pure trivial
        | true => exact (hmod true).bind fun _ _ => .pure trivial
    | true =>
      refine Steady.traced hc.msg ((Steady.processed hb).bind fun d _ => ?_)
      cases d with
      | true => exact .pure trivial
      | false =>
        refine (hmod true).bind fun _ _ => (Steady.deref hb).bind fun nd hnd => ?_
        subst hnd
        exact Steady.processKids (fun c hm => ih (hc.kid hk hm)) (fun c hm => hc.below c (.kid hm (.self c)))

/-! ## Calls that change the hierarchy -/

/-- The outcome is defined, the traceback is `tr`; if the call returns, `Q` holds of the blocks. -/
def Lands (tr : List TraceInfo) (Q : α → Heap → (BlkId → Bool) → Prop) : EStateM.Result Err (Store σ) α → Prop
  | .ok a s => Q a s.heap s.alive ∧ s.trace = tr
  | .error (.ub _) _ => False
  | .error _ s => s.trace = tr

theorem Steady.lands {x : LM σ α} {Q : α → Prop} {s : Store σ} (hx : Steady s.heap s.alive x Q) :
    Lands s.trace (fun a h al => h = s.heap ∧ al = s.alive ∧ Q a) (x s) := by
  have k := hx s rfl rfl
  revert k
  cases x s with
  | ok a s' => exact fun ⟨k1, k2, k3, k4⟩ => ⟨⟨k1, k2, k4⟩, k3⟩
  | error e s' =>
    cases e with
    | ub u => exact fun k => k
    | exc e => exact fun k => k.2.2
    | fuel => exact fun k => k.2.2

theorem Lands.bind {x : LM σ α} {f : α → LM σ β} {s : Store σ} {Q : α → Heap → (BlkId → Bool) → Prop} {R : β → Heap → (BlkId → Bool) → Prop} (hx : Lands s.trace Q (x s))
    (hf : ∀ a s', Q a s'.heap s'.alive → Lands s'.trace R (f a s')) : Lands s.trace R ((x >>= f) s) := by
  rw [lm_bind]
  revert hx
  cases x s with
  | ok a s' =>
    rintro ⟨k1, k2⟩
    rw [← k2]
    exact hf a s' k1
  | error e s' => cases e <;> exact fun k => k

theorem Lands.traced {file : String} {line : Int} {msg : LM σ Str} {x : LM σ α} {s : Store σ} {Q : α → Heap → (BlkId → Bool) → Prop}
    (hm : dbg = true → Steady s.heap s.alive msg (fun _ => True)) (hx : ∀ s2, s2.heap = s.heap → s2.alive = s.alive → Lands s2.trace Q (x s2)) :
    Lands s.trace Q (traced dbg file line msg x s) := by
  unfold Pooya.traced
  cases dbg with
  | false => exact hx s rfl rfl
  | true =>
    simp only [if_true]
    have hu : ∀ m s1, s1.heap = s.heap → s1.alive = s.alive → s1.trace = {} :: s.trace →
        ∃ t, Lands (t :: s.trace) Q ((do traceUpdate true file line m; x : LM σ α) s1) := by
      intro m s1 h1 h2 h3
      rw [lm_bind]
      unfold traceUpdate
      rw [h3]
      simp only
      refine ⟨_, hx { s1 with trace := _ } h1 h2⟩
    have key : ∃ t, Lands (t :: s.trace) Q ((do let m ← msg; traceUpdate true file line m; x : LM σ α) { s with trace := {} :: s.trace }) := by
      rw [lm_bind]
      have k := hm rfl { s with trace := {} :: s.trace } rfl rfl
      revert k
      cases msg { s with trace := {} :: s.trace } with
      | ok m s1 => rintro ⟨k1, k2, k3, -⟩; exact hu m s1 k1 k2 k3
      | error e s1 =>
        cases e with
        | ub u => exact fun k => k.elim
        | exc e => exact fun k => ⟨_, k.2.2⟩
        | fuel => exact fun k => ⟨_, k.2.2⟩
    obtain ⟨t, key⟩ := key
    revert key
    cases (do let m ← msg; traceUpdate true file line m; x : LM σ α) { s with trace := {} :: s.trace } with
    | ok a s2 => rintro ⟨k1, k2⟩; simp only [tracePop, k2]; exact ⟨k1, rfl⟩
    | error e s2 =>
      cases e with
      | ub u => exact fun k => (show False from k).elim
      | exc e => intro k; simp only [tracePop, show s2.trace = _ from k]; rfl
      | fuel => intro k; simp only [tracePop, show s2.trace = _ from k]; rfl

theorem Lands.link {s : Store σ} {n : Nat} {p b : BlkId} (ht : ∀ x, LOp.Touches (σ := σ) dbg s.heap (.linkBlock p b) x → s.alive x = true) :
    Lands s.trace (fun r h al => h = (linkBlock s.heap p b).2 ∧ al = s.alive ∧ (r = true ↔ s.heap.parent b = some p)) (linkBlockP (σ := σ) dbg n p b s) := by
  unfold linkBlockP
  refine Lands.traced (fun hd => (Steady.blockMsg fun x hx => ht x (.inr (.inl ⟨hd, hx⟩))).weaken fun _ _ => trivial) fun s2 e1 e2 => ?_
  refine Lands.bind ((Steady.deref (b := b) (by rw [e2]; exact ht b (.inl rfl))).lands) fun nd s3 hq => ?_
  obtain ⟨q1, q2, rfl⟩ := hq
  by_cases hp : s.heap.parent b = some p
  · have : (s2.heap.node b).parent = some p := by rw [e1]; exact hp
    simp only [this, ne_eq, not_true_eq_false, if_false]
    refine Lands.bind ((Steady.deref (b := p) (by rw [q2, e2]; exact ht p (.inr (.inr (by rw [if_pos hp]))))).lands) fun np s4 hq => ?_
    obtain ⟨r1, r2, rfl⟩ := hq
    have hh : s4.heap = s.heap := r1.trans (q1.trans e1)
    have ha : s4.alive = s.alive := r2.trans (q2.trans e2)
    rw [q1, e1]
    by_cases hm : b ∈ (s.heap.node p).kids
    · rw [if_pos hm]
      refine ⟨⟨?_, ha, iff_of_true rfl hp⟩, rfl⟩
      rw [hh]; simp [linkBlock, hp, Heap.kids, hm]
    · rw [if_neg hm]
      refine ⟨⟨?_, ha, iff_of_true rfl hp⟩, rfl⟩
      show (⟨upd s4.heap.node p _, s4.heap.next⟩ : Heap) = _
      rw [hh]; simp [linkBlock, hp, Heap.kids, hm]
  · have : (s2.heap.node b).parent ≠ some p := by rw [e1]; exact hp
    simp only [this, ne_eq, not_false_eq_true, if_true]
    refine Lands.bind ((Steady.fullName (n := n) (b := b) fun x hx => ?_).lands) fun v s4 hq => ?_
    · rw [q2, e2]; exact ht x (.inr (.inr (by rw [if_neg hp]; rw [q1, e1] at hx; exact hx)))
    · obtain ⟨r1, r2, -⟩ := hq
      refine ⟨⟨?_, r2.trans (q2.trans e2), iff_of_false (fun e => by cases e) hp⟩, rfl⟩
      rw [r1.trans (q1.trans e1)]; simp [linkBlock, hp]

theorem above_upd {hp hp' : Heap} {b p : BlkId} (h1 : ∀ c, c ≠ b → hp'.parent c = hp.parent c) (h2 : hp'.parent b = some p) {c x : BlkId} (hx : hp'.Above c x) :
    hp.Above c x ∨ x = b ∨ hp.Above p x := by
  induction hx with
  | self c => exact .inl (.self c)
  | @up c q x hq hx ih =>
    by_cases hc : c = b
    · subst hc
      rw [h2] at hq
      cases hq
      rcases ih with h | h | h
      · exact .inr (.inr h)
      · exact .inr (.inl h)
      · exact .inr (.inr h)
    · rw [h1 c hc] at hq
      rcases ih with h | h | h
      · exact .inl (.up hq h)
      · exact .inr (.inl h)
      · exact .inr (.inr h)

theorem Lands.setParent {s : Store σ} {n : Nat} {p b : BlkId} (ht : ∀ x, LOp.Touches (σ := σ) dbg s.heap (.setParent b p) x → s.alive x = true) :
    Lands s.trace (fun r h al => h = (setParent s.heap b p).2 ∧ al = s.alive ∧ (r = true ↔ s.heap.parent b = none ∨ s.heap.parent b = some p)) (setParentP (σ := σ) dbg n b p s) := by
  unfold setParentP
  refine Lands.bind ((Steady.deref (b := b) (ht b (.inl rfl))).lands) fun nd s1 hq => ?_
  obtain ⟨q1, q2, rfl⟩ := hq
  by_cases hp : s.heap.parent b = none ∨ s.heap.parent b = some p
  · have : ¬ ((s.heap.node b).parent ≠ none ∧ (s.heap.node b).parent ≠ some p) := by
      rintro ⟨h1, h2⟩; exact hp.elim h1 h2
    rw [if_neg this]
    have hnew : (Pooya.setParent s.heap b p).2 = (linkBlock { s.heap with node := upd s.heap.node b { s.heap.node b with parent := some p } } p b).2 := by
      unfold Pooya.setParent
      rcases hp with e | e <;> rw [e]
      simp
    show Lands s1.trace _ ((do let _ ← linkBlockP dbg n p b; pure true : LM σ Bool) { s1 with heap := { s1.heap with node := upd s1.heap.node b { s1.heap.node b with parent := some p } } })
    refine Lands.bind (s := { s1 with heap := { s1.heap with node := upd s1.heap.node b { s1.heap.node b with parent := some p } } }) (Lands.link fun x hx => ?_) fun r s2 hr => ?_
    · show s1.alive x = true
      rw [q2]
      have hparb : Heap.parent { s1.heap with node := upd s1.heap.node b { s1.heap.node b with parent := some p } } b = some p := by simp [Heap.parent, upd]
      have hpar : ∀ c, c ≠ b → Heap.parent { s1.heap with node := upd s1.heap.node b { s1.heap.node b with parent := some p } } c = s.heap.parent c := by
        intro c hc; rw [q1]; simp [Heap.parent, upd, hc]
      rcases hx with rfl | ⟨hd, hx⟩ | hx
      · exact ht _ (.inl rfl)
      · rcases above_upd hpar hparb hx with h | h | h
        · exact ht x (.inr (by rw [if_pos hp]; exact .inr ⟨hd, h⟩))
        · exact ht x (.inl h)
        · exact ht x (.inr (by rw [if_pos hp]; exact .inr ⟨hd, h⟩))
      · rw [if_pos hparb] at hx
        exact ht x (.inr (by rw [if_pos hp]; exact .inl hx))
    · refine ⟨⟨?_, hr.2.1.trans q2, iff_of_true rfl hp⟩, rfl⟩
      rw [hr.1, hnew]
      show (linkBlock { s1.heap with node := _ } p b).2 = _
      rw [q1]
  · have : (s.heap.node b).parent ≠ none ∧ (s.heap.node b).parent ≠ some p := ⟨fun e => hp (.inl e), fun e => hp (.inr e)⟩
    rw [if_pos this]
    refine Lands.bind ((Steady.fullName (n := n) (b := b) fun x hx => ?_).lands) fun v s2 hr => ?_
    · rw [q2]; rw [q1] at hx; exact ht x (.inr (by rw [if_neg hp]; exact hx))
    · refine ⟨⟨?_, hr.2.1.trans q2, iff_of_false (fun e => by cases e) hp⟩, rfl⟩
      rw [hr.1, q1]
      unfold Pooya.setParent
      cases e : s.heap.parent b with
      | none => exact (this.1 e).elim
      | some q => simp only; rw [if_pos]; exact fun e' => this.2 (by rw [← e']; exact e)

theorem Lands.new {s : Store σ} {n : Nat} {k : Bool} {par : Option BlkId} {name : Str}
    (ht : ∀ x, LOp.Touches (σ := σ) dbg s.heap (.new k par name) x → s.alive x = true) :
    Lands s.trace (fun r h al => h = (newBlock s.heap k par name).2 ∧ al = upd s.alive s.heap.next true ∧ r = s.heap.next) (newBlockP (σ := σ) dbg n k par name s) := by
  unfold newBlockP
  cases par with
  | none => exact ⟨⟨rfl, rfl, rfl⟩, rfl⟩
  | some p =>
    show Lands s.trace _ ((do let _ ← linkBlockP dbg n p s.heap.next; pure s.heap.next : LM σ BlkId)
      { s with heap := ⟨upd s.heap.node s.heap.next ⟨emend name, k, some p, []⟩, s.heap.next + 1⟩, alive := upd s.alive s.heap.next true, processed := upd s.processed s.heap.next false })
    refine Lands.bind (s := { s with heap := ⟨upd s.heap.node s.heap.next ⟨emend name, k, some p, []⟩, s.heap.next + 1⟩, alive := upd s.alive s.heap.next true, processed := upd s.processed s.heap.next false })
      (Lands.link fun x hx => ?_) fun r s2 hr => ⟨⟨hr.1, hr.2.1, rfl⟩, rfl⟩
    show upd s.alive s.heap.next true x = true
    have hparb : Heap.parent ⟨upd s.heap.node s.heap.next ⟨emend name, k, some p, []⟩, s.heap.next + 1⟩ s.heap.next = some p := by simp [Heap.parent, upd]
    have hother : ∀ c, c ≠ s.heap.next → Heap.parent ⟨upd s.heap.node s.heap.next ⟨emend name, k, some p, []⟩, s.heap.next + 1⟩ c = s.heap.parent c := by
      intro c hc; simp [Heap.parent, upd, hc]
    by_cases hxn : x = s.heap.next
    · simp [upd, hxn]
    · have : upd s.alive s.heap.next true x = s.alive x := by simp [upd, hxn]
      rw [this]
      rcases hx with h | ⟨hd, hx⟩ | hx
      · exact (hxn h).elim
      · rcases above_upd hother hparb hx with h | h | h
        · exact ht x (.inr ⟨hd, h⟩)
        · exact (hxn h).elim
        · exact ht x (.inr ⟨hd, h⟩)
      · rw [if_pos hparb] at hx
        exact ht x (.inl hx)

/-! ## What has been passed when a call returns -/

/-- When the call returns, `Q` holds; it neither builds nor destroys blocks. -/
def Surely (h : Heap) (al : BlkId → Bool) {α : Type} (x : LM σ α) (Q : α → Prop) : Prop :=
  ∀ s, s.heap = h → s.alive = al → ∀ a s', x s = .ok a s' → s'.heap = h ∧ s'.alive = al ∧ Q a

theorem Surely.bind {x : LM σ α} {f : α → LM σ β} {Q : α → Prop} {R : β → Prop} (hx : Surely h al x Q) (hf : ∀ a, Q a → Surely h al (f a) R) :
    Surely h al (x >>= f) R := by
  intro s h1 h2 b s2 e
  rw [lm_bind] at e
  cases e1 : x s with
  | error e' s' => rw [e1] at e; cases e
  | ok a s' =>
    rw [e1] at e
    obtain ⟨k1, k2, k3⟩ := hx s h1 h2 a s' e1
    exact hf a k3 s' k1 k2 b s2 e

theorem Surely.pure {a : α} {Q : α → Prop} (hq : Q a) : Surely h al (pure a : LM σ α) Q := fun s h1 h2 a' s' e => by cases e; exact ⟨h1, h2, hq⟩

theorem Surely.fuel {Q : α → Prop} : Surely h al (throw .fuel : LM σ α) Q := fun s h1 h2 a' s' e => by cases e

theorem Surely.weaken {x : LM σ α} {Q R : α → Prop} (hx : Surely h al x Q) (hq : ∀ a, Q a → R a) : Surely h al x R := fun s h1 h2 a s' e => by
  obtain ⟨k1, k2, k3⟩ := hx s h1 h2 a s' e
  exact ⟨k1, k2, hq a k3⟩

theorem Surely.deref {b : BlkId} : Surely h al (deref (σ := σ) b) (fun nd => nd = h.node b ∧ al b = true) := by
  intro s h1 h2 a s' e
  unfold Pooya.deref at e
  rw [h2] at e
  by_cases hb : al b = true
  · rw [if_pos hb] at e; cases e; exact ⟨h1, h2, by rw [h1], hb⟩
  · rw [if_neg hb] at e; cases e

theorem Surely.modify {f : Store σ → Store σ} (h1 : ∀ s, (f s).heap = s.heap) (h2 : ∀ s, (f s).alive = s.alive) :
    Surely h al (modify f : LM σ Unit) (fun _ => True) := fun s k1 k2 a s' e => by cases e; exact ⟨(h1 s).trans k1, (h2 s).trans k2, trivial⟩

theorem Surely.fullName {n : Nat} {b : BlkId} : Surely h al (fullNameP (σ := σ) n b) (fun _ => ∀ x, h.Above b x → al x = true) := by
  induction n generalizing b with
  | zero => exact .fuel
  | succ n ih =>
    unfold fullNameP
    refine Surely.deref.bind fun nd hnd => ?_
    obtain ⟨rfl, hb⟩ := hnd
    cases hp : (h.node b).parent with
    | none =>
      refine .pure fun x hx => ?_
      cases hx with
      | self => exact hb
      | up hp' _ => rw [show h.parent b = none from hp] at hp'; cases hp'
    | some p =>
      refine ih.bind fun v hv => .pure fun x hx => ?_
      cases hx with
      | self => exact hb
      | up hp' hx => rw [show h.parent b = some p from hp] at hp'; cases hp'; exact hv x hx

theorem Surely.blockMsg {n : Nat} {b : BlkId} : Surely h al (Pooya.blockMsg (σ := σ) n b) (fun _ => ∀ x, h.Above b x → al x = true) :=
  Surely.fullName.bind fun _ hv => .pure hv

theorem Surely.traced {dbg : Bool} {file : String} {line : Int} {msg : LM σ Str} {x : LM σ α} {P : Prop} {Q : α → Prop} (hm : Surely h al msg (fun _ => P))
    (hx : Surely h al x Q) : Surely h al (traced dbg file line msg x) (fun a => (dbg = true → P) ∧ Q a) := by
  intro s h1 h2 a s' e
  unfold Pooya.traced at e
  cases dbg with
  | false =>
    obtain ⟨k1, k2, k3⟩ := hx s h1 h2 a s' e
    exact ⟨k1, k2, fun hd => (by cases hd), k3⟩
  | true =>
    simp only [if_true] at e
    have hu : ∀ m, Surely h al (traceUpdate (σ := σ) true file line m) (fun _ => True) := by
      intro m s h1 h2 a s' e
      unfold traceUpdate at e
      cases ht : s.trace with
      | nil => rw [ht] at e; cases e
      | cons t r => rw [ht] at e; cases e; exact ⟨h1, h2, trivial⟩
    have hall : Surely h al (do let m ← msg; traceUpdate true file line m; x : LM σ α) (fun a => P ∧ Q a) :=
      hm.bind fun m hp => (hu m).bind fun _ _ => hx.weaken fun a ha => ⟨hp, ha⟩
    revert e
    cases e1 : (do let m ← msg; traceUpdate true file line m; x : LM σ α) { s with trace := {} :: s.trace } with
    | error e' s2 =>
      intro e
      unfold tracePop at e
      cases ht : s2.trace <;> simp [ht] at e
    | ok b s2 =>
      intro e
      obtain ⟨k1, k2, k3, k4⟩ := hall { s with trace := {} :: s.trace } h1 h2 b s2 e1
      unfold tracePop at e
      cases ht : s2.trace with
      | nil => simp [ht] at e
      | cons t r => simp only [ht] at e; cases e; exact ⟨k1, k2, fun _ => k3, k4⟩

theorem Surely.forKids {f : BlkId → LM σ Bool} {l : List BlkId} {P : BlkId → Prop} (hf : ∀ c ∈ l, Surely h al (f c) (fun r => r = true ∧ P c)) :
    Surely h al (forKids f l) (fun r => r = true ∧ ∀ c ∈ l, P c) := by
  induction l with
  | nil => exact .pure ⟨rfl, fun c hc => (by cases hc)⟩
  | cons c cs ih =>
    unfold Pooya.forKids
    refine (hf c (.head _)).bind fun r hr => ?_
    obtain ⟨rfl, hp⟩ := hr
    refine (ih fun d hd => hf d (.tail _ hd)).weaken fun r hr => ⟨hr.1, fun d hd => ?_⟩
    rcases List.mem_cons.1 hd with rfl | hd
    · exact hp
    · exact hr.2 d hd

theorem below_kids {b : BlkId} (hb : al b = true) (hk : ∀ c ∈ h.kids b, ∀ x, h.Below c x → al x = true) : ∀ x, h.Below b x → al x = true := by
  intro x hx
  cases hx with
  | self => exact hb
  | kid hc hx => exact hk _ hc x hx

/-- Leaves have no children. -/
def Heap.Leafy (h : Heap) : Prop := ∀ b, (h.node b).isSub = false → h.kids b = []

theorem Surely.mark {flag : BlkId → Bool} (hl : h.Leafy) {n : Nat} {b : BlkId} :
    Surely h al (markP (σ := σ) dbg flag n b) (fun _ => (∀ x, h.Below b x → al x = true) ∧ (dbg = true → (h.node b).isSub = true → ∀ x, h.Above b x → al x = true)) := by
  induction n generalizing b with
  | zero => exact .fuel
  | succ n ih =>
    unfold markP
    refine Surely.deref.bind fun nd hnd => ?_
    obtain ⟨rfl, hb⟩ := hnd
    cases hs : (h.node b).isSub with
    | false =>
      simp only [Bool.false_eq_true, if_false]
      refine Surely.weaken (Q := fun _ => True) (Surely.modify (fun _ => rfl) (fun _ => rfl)) fun _ _ => ⟨below_kids hb ?_, fun _ e => (by cases e)⟩
      rw [hl b hs]; exact fun c hc => (by cases hc)
    | true =>
      refine (Surely.traced (Q := fun _ => ∀ c ∈ h.kids b, ∀ x, h.Below c x → al x = true) Surely.blockMsg ?_).weaken fun _ hq => ⟨below_kids hb hq.2, fun hd _ => hq.1 hd⟩
      refine Surely.deref.bind fun nd hnd => ?_
      obtain ⟨rfl, -⟩ := hnd
      refine Surely.bind (Q := fun _ => True) (Surely.modify (fun _ => rfl) (fun _ => rfl)) fun _ _ => ?_
      exact (Surely.forKids fun c _ => (ih (b := c)).bind fun _ hq => .pure ⟨rfl, hq.1⟩).bind fun _ hr => .pure hr.2

theorem Surely.step (hl : h.Leafy) {line : Int} {f : BlkId → LM σ Unit} (hf : ∀ b, Surely h al (f b) (fun _ => True)) {n : Nat} {b : BlkId} :
    Surely h al (stepP dbg line f n b) (fun _ => (∀ x, h.Below b x → al x = true) ∧ (dbg = true → (h.node b).isSub = true → ∀ x, h.Above b x → al x = true)) := by
  induction n generalizing b with
  | zero => exact .fuel
  | succ n ih =>
    unfold stepP
    refine Surely.deref.bind fun nd hnd => ?_
    obtain ⟨rfl, hb⟩ := hnd
    cases hs : (h.node b).isSub with
    | false =>
      refine (hf b).weaken fun _ _ => ⟨below_kids hb ?_, fun _ e => (by cases e)⟩
      rw [hl b hs]; exact fun c hc => (by cases hc)
    | true =>
      refine (Surely.traced (Q := fun _ => ∀ c ∈ h.kids b, ∀ x, h.Below c x → al x = true) Surely.blockMsg ?_).weaken fun _ hq => ⟨below_kids hb hq.2, fun hd _ => hq.1 hd⟩
      refine Surely.deref.bind fun nd hnd => ?_
      obtain ⟨rfl, -⟩ := hnd
      exact (Surely.forKids fun c _ => (ih (b := c)).bind fun _ hq => .pure ⟨rfl, hq.1⟩).bind fun _ hr => .pure hr.2

theorem Surely.visit (hl : h.Leafy) {cb : BlkId → Nat → LM σ Bool} (hcb : ∀ b l, Surely h al (cb b l) (fun r => r = true)) {n : Nat} {b : BlkId} {lv m : Nat} (hm : lv + n ≤ m) :
    Surely h al (visitP dbg cb n b lv m) (fun r => r = true ∧ (∀ x, h.Below b x → al x = true) ∧ (dbg = true → ∀ x, h.Above b x → al x = true)) := by
  induction n generalizing b lv with
  | zero => exact .fuel
  | succ n ih =>
    unfold visitP
    refine Surely.deref.bind fun nd hnd => ?_
    obtain ⟨rfl, hb⟩ := hnd
    have hlv : ¬ lv > m := by omega
    have hlt : lv < m := by omega
    simp only [if_neg hlv, if_pos hlt]
    have hbase := Surely.traced (dbg := dbg) (file := "block.hpp") (line := 103) (Surely.blockMsg (n := n) (b := b)) (hcb b lv)
    cases hs : (h.node b).isSub with
    | false =>
      refine hbase.weaken fun r hr => ⟨hr.2, below_kids hb ?_, hr.1⟩
      rw [hl b hs]; exact fun c hc => (by cases hc)
    | true =>
      refine (Surely.traced (Q := fun r => r = true ∧ ∀ c ∈ h.kids b, ∀ x, h.Below c x → al x = true) Surely.blockMsg ?_).weaken
        fun _ hq => ⟨hq.2.1, below_kids hb hq.2.2, hq.1⟩
      refine hbase.bind fun r hr => ?_
      obtain ⟨-, rfl⟩ := hr
      refine Surely.deref.bind fun nd hnd => ?_
      obtain ⟨rfl, -⟩ := hnd
      exact Surely.forKids fun c _ => (ih (b := c) (by omega)).weaken fun r hr => ⟨hr.1, hr.2.1⟩

theorem Tame.surely {x : LM σ α} (hx : Tame x) : Surely h al x (fun _ => True) := by
  intro s h1 h2 a s' e
  have k := hx s
  rw [e] at k
  exact ⟨k.1.trans h1, k.2.1.trans h2, trivial⟩

theorem Surely.loop {f : BlkId → LM σ Bool} {l : List BlkId} (hf : ∀ c, Surely h al (f c) (fun _ => True)) : Surely h al (Pooya.forKids f l) (fun _ => True) := by
  induction l with
  | nil => exact .pure trivial
  | cons c cs ih =>
    unfold Pooya.forKids
    refine (hf c).bind fun r _ => ?_
    cases r with
    | false => exact .pure trivial
    | true => exact ih

theorem Surely.visits {cb : BlkId → Nat → LM σ Bool} (hcb : ∀ b l, Surely h al (cb b l) (fun _ => True)) {n : Nat} {b : BlkId} {lv m : Nat} :
    Surely h al (visitP dbg cb n b lv m) (fun _ => True) := by
  induction n generalizing b lv with
  | zero => exact .fuel
  | succ n ih =>
    unfold visitP
    refine Surely.deref.bind fun nd hnd => ?_
    have hbase : Surely h al (Pooya.traced dbg "block.hpp" 103 (Pooya.blockMsg (σ := σ) n b) (if lv > m then Pure.pure true else cb b lv)) (fun _ => True) := by
      refine (Surely.traced Surely.blockMsg ?_).weaken (fun _ hq => hq.2)
      split
      · exact .pure trivial
      · exact hcb b lv
    simp only
    cases nd.isSub with
    | false => exact hbase
    | true =>
      refine (Surely.traced Surely.blockMsg ?_).weaken (fun _ hq => hq.2)
      by_cases hl : lv > m
      · rw [if_pos hl]; exact .pure trivial
      · rw [if_neg hl]
        refine hbase.bind fun r _ => ?_
        cases r with
        | false => exact .pure trivial
        | true =>
          simp only [Bool.not_true, Bool.false_eq_true, if_false]
          split
          · exact Surely.deref.bind fun nd hnd => Surely.loop fun c => ih
          · exact .pure trivial

theorem Surely.processed {b : BlkId} : Surely h al (processedP (σ := σ) b) (fun _ => True) :=
  Surely.deref.bind fun _ _ => fun s h1 h2 a s' e => by cases e; exact ⟨h1, h2, trivial⟩

theorem Surely.processKids {p : BlkId} {f : BlkId → LM σ Nat} {l : List BlkId} (hf : ∀ c, Surely h al (f c) (fun _ => True)) :
    Surely h al (processKids p f l) (fun _ => True) := by
  induction l with
  | nil => exact .pure trivial
  | cons c cs ih =>
    unfold Pooya.processKids
    refine (hf c).bind fun k _ => Surely.processed.bind fun d _ => ?_
    cases d with
    | true => exact ih.bind fun r _ => .pure trivial
    | false =>
      refine Surely.bind (Q := fun _ => True) (Surely.modify (fun _ => rfl) (fun _ => rfl)) fun _ _ => ?_
      exact ih.bind fun r _ => .pure trivial

theorem Surely.process {act : BlkId → LM σ Bool} (hf : ∀ b, Surely h al (act b) (fun _ => True)) {n : Nat} {b : BlkId} :
    Surely h al (processP dbg act n b) (fun _ => True) := by
  induction n generalizing b with
  | zero => exact .fuel
  | succ n ih =>
    unfold processP
    refine Surely.deref.bind fun nd hnd => ?_
    have hmod : ∀ v, Surely h al (_root_.modify (fun s : Store σ => { s with processed := upd s.processed b v }) : LM σ Unit) (fun _ => True) :=
      fun v => Surely.modify (fun _ => rfl) (fun _ => rfl)
    cases nd.isSub with
    | false =>
      refine (Surely.traced Surely.blockMsg (Surely.processed.bind fun d _ => ?_)).weaken (fun _ hq => hq.2)
      cases d with
      | true => exact .pure trivial
      | false =>
        refine (hf b).bind fun r _ => ?_
        cases r with
        | false => exact .pure trivial
        | true => exact (hmod true).bind fun _ _ => .pure trivial
    | true =>
      refine (Surely.traced Surely.blockMsg (Surely.processed.bind fun d _ => ?_)).weaken (fun _ hq => hq.2)
      cases d with
      | true => exact .pure trivial
      | false => exact (hmod true).bind fun _ _ => Surely.deref.bind fun nd hnd => Surely.processKids fun c => ih

/-- If the call returns, `Q` holds of the blocks. -/
def Makes (s : Store σ) (Q : Heap → (BlkId → Bool) → Prop) (r : EStateM.Result Err (Store σ) α) : Prop := ∀ a s', r = .ok a s' → Q s'.heap s'.alive

theorem Makes.bind {x : LM σ α} {f : α → LM σ β} {s : Store σ} {P : α → Prop} {Q : Heap → (BlkId → Bool) → Prop} (hx : Surely s.heap s.alive x P)
    (hf : ∀ a s', P a → s'.heap = s.heap → s'.alive = s.alive → Makes s' Q (f a s')) : Makes s Q ((x >>= f) s) := by
  intro b s2 e
  rw [lm_bind] at e
  cases e1 : x s with
  | error e' s' => rw [e1] at e; cases e
  | ok a s' =>
    rw [e1] at e
    obtain ⟨k1, k2, k3⟩ := hx s rfl rfl a s' e1
    exact hf a s' k3 k1 k2 b s2 e

theorem Makes.traced {file : String} {line : Int} {msg : LM σ Str} {x : LM σ α} {s : Store σ} {Q : Heap → (BlkId → Bool) → Prop}
    (hm : Surely s.heap s.alive msg (fun _ => True)) (hx : ∀ s2, s2.heap = s.heap → s2.alive = s.alive → Makes s2 Q (x s2)) :
    Makes s Q (Pooya.traced dbg file line msg x s) := by
  unfold Pooya.traced
  cases dbg with
  | false => exact hx s rfl rfl
  | true =>
    simp only [if_true]
    have key : Makes { s with trace := {} :: s.trace } Q ((do let m ← msg; traceUpdate true file line m; x : LM σ α) { s with trace := {} :: s.trace }) := by
      refine Makes.bind (s := { s with trace := {} :: s.trace }) hm fun m s1 _ h1 h2 => ?_
      refine Makes.bind (P := fun _ => True) (s := s1) ?_ fun _ s2 _ k1 k2 => hx s2 (k1.trans h1) (k2.trans h2)
      intro s h1 h2 a s' e
      unfold traceUpdate at e
      cases ht : s.trace with
      | nil => rw [ht] at e; cases e
      | cons t r => rw [ht] at e; cases e; exact ⟨h1, h2, trivial⟩
    intro a s' e
    revert e
    cases e1 : (do let m ← msg; traceUpdate true file line m; x : LM σ α) { s with trace := {} :: s.trace } with
    | error e' s2 =>
      intro e
      unfold tracePop at e
      cases ht : s2.trace <;> simp [ht] at e
    | ok b s2 =>
      intro e
      have k := key b s2 e1
      unfold tracePop at e
      cases ht : s2.trace with
      | nil => simp [ht] at e
      | cons t r => simp only [ht] at e; cases e; exact k

theorem Makes.link {s : Store σ} {n : Nat} {p b : BlkId} : Makes s (fun h al => h = (linkBlock s.heap p b).2 ∧ al = s.alive) (linkBlockP (σ := σ) dbg n p b s) := by
  unfold linkBlockP
  refine Makes.traced (Surely.blockMsg.weaken fun _ _ => trivial) fun s2 e1 e2 => ?_
  refine Makes.bind Surely.deref fun nd s3 hnd q1 q2 => ?_
  obtain ⟨rfl, -⟩ := hnd
  by_cases hp : s.heap.parent b = some p
  · have : (s2.heap.node b).parent = some p := by rw [e1]; exact hp
    simp only [this, ne_eq, not_true_eq_false, if_false]
    refine Makes.bind Surely.deref fun np s4 hnp r1 r2 => ?_
    obtain ⟨rfl, -⟩ := hnp
    have hh : s4.heap = s.heap := r1.trans (q1.trans e1)
    have ha : s4.alive = s.alive := r2.trans (q2.trans e2)
    rw [q1, e1]
    by_cases hm : b ∈ (s.heap.node p).kids
    · rw [if_pos hm]
      intro a s' e
      cases e
      exact ⟨by rw [hh]; simp [linkBlock, hp, Heap.kids, hm], ha⟩
    · rw [if_neg hm]
      intro a s' e
      cases e
      refine ⟨?_, ha⟩
      show (⟨upd s4.heap.node p _, s4.heap.next⟩ : Heap) = _
      rw [hh]; simp [linkBlock, hp, Heap.kids, hm]
  · have : (s2.heap.node b).parent ≠ some p := by rw [e1]; exact hp
    simp only [this, ne_eq, not_false_eq_true, if_true]
    refine Makes.bind Surely.fullName fun v s4 _ r1 r2 => ?_
    intro a s' e
    cases e
    exact ⟨by rw [r1.trans (q1.trans e1)]; simp [linkBlock, hp], r2.trans (q2.trans e2)⟩

theorem Makes.setParent {s : Store σ} {n : Nat} {p b : BlkId} : Makes s (fun h al => h = (Pooya.setParent s.heap b p).2 ∧ al = s.alive) (setParentP (σ := σ) dbg n b p s) := by
  unfold setParentP
  refine Makes.bind Surely.deref fun nd s1 hnd q1 q2 => ?_
  obtain ⟨rfl, -⟩ := hnd
  by_cases hp : s.heap.parent b = none ∨ s.heap.parent b = some p
  · have : ¬ ((s.heap.node b).parent ≠ none ∧ (s.heap.node b).parent ≠ some p) := by
      rintro ⟨h1, h2⟩; exact hp.elim h1 h2
    rw [if_neg this]
    have hnew : (Pooya.setParent s.heap b p).2 = (linkBlock { s.heap with node := upd s.heap.node b { s.heap.node b with parent := some p } } p b).2 := by
      unfold Pooya.setParent
      rcases hp with e | e <;> rw [e]
      simp
    intro a s' e
    rw [lm_bind] at e
    have e : ((do let _ ← linkBlockP dbg n p b; Pure.pure true : LM σ Bool) { s1 with heap := { s1.heap with node := upd s1.heap.node b { s1.heap.node b with parent := some p } } }) = .ok a s' := e
    rw [lm_bind] at e
    cases e1 : linkBlockP dbg n p b { s1 with heap := { s1.heap with node := upd s1.heap.node b { s1.heap.node b with parent := some p } } } with
    | error e' s' => rw [e1] at e; cases e
    | ok r s2 =>
      rw [e1] at e
      cases e
      obtain ⟨k1, k2⟩ := Makes.link _ _ e1
      refine ⟨?_, k2.trans q2⟩
      rw [k1, hnew]
      show (linkBlock { s1.heap with node := _ } p b).2 = _
      rw [q1]
  · have : (s.heap.node b).parent ≠ none ∧ (s.heap.node b).parent ≠ some p := ⟨fun e => hp (.inl e), fun e => hp (.inr e)⟩
    rw [if_pos this]
    refine Makes.bind Surely.fullName fun v s2 _ r1 r2 => ?_
    intro a s' e
    cases e
    refine ⟨?_, r2.trans q2⟩
    rw [r1, q1]
    unfold Pooya.setParent
    cases e : s.heap.parent b with
    | none => exact (this.1 e).elim
    | some q => simp only; rw [if_pos]; exact fun e' => this.2 (by rw [← e']; exact e)

theorem Makes.new {s : Store σ} {n : Nat} {k : Bool} {par : Option BlkId} {name : Str} :
    Makes s (fun h al => h = (newBlock s.heap k par name).2 ∧ al = upd s.alive s.heap.next true) (newBlockP (σ := σ) dbg n k par name s) := by
  unfold newBlockP
  cases par with
  | none => intro a s' e; cases e; exact ⟨rfl, rfl⟩
  | some p =>
    intro a s' e
    have e : ((do let _ ← linkBlockP dbg n p s.heap.next; Pure.pure s.heap.next : LM σ BlkId)
      { s with heap := ⟨upd s.heap.node s.heap.next ⟨emend name, k, some p, []⟩, s.heap.next + 1⟩, alive := upd s.alive s.heap.next true, processed := upd s.processed s.heap.next false }) = .ok a s' := e
    rw [lm_bind] at e
    cases e1 : linkBlockP dbg n p s.heap.next { s with heap := ⟨upd s.heap.node s.heap.next ⟨emend name, k, some p, []⟩, s.heap.next + 1⟩, alive := upd s.alive s.heap.next true, processed := upd s.processed s.heap.next false } with
    | error e' s' => rw [e1] at e; cases e
    | ok r s2 =>
      rw [e1] at e
      cases e
      exact Makes.link _ _ e1

end Pooya
