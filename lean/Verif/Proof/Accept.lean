import Verif.Spec.Accept
import Verif.Proof.Bus
import Verif.Props.C58

/-! Calls of `connect` as functions of the two buses alone. -/

namespace Pooya.Accept

set_option linter.unusedSectionVars false

variable {K : Type} {α β : Type}

/-- The block has been given these buses. -/
def At (ibus obus : Entries) (st : CState) : Prop := st.c.ibus = ibus ∧ st.c.obus = obus

/-- From any state with these buses, `m` ends as `e` says, and keeps the buses. -/
def Sim (ibus obus : Entries) (m : CM α) (e : Except Err α) : Prop :=
  ∀ st, At ibus obus st → match e with
    | .ok a => ∃ st', m st = .ok a st' ∧ At ibus obus st'
    | .error x => ∃ st', m st = .error x st'

variable {ibus obus : Entries}

theorem Sim.pure (a : α) : Sim ibus obus (Pure.pure a) (.ok a) := fun st h => ⟨st, rfl, h⟩

theorem Sim.bind {m : CM α} {e : Except Err α} {f : α → CM β} {g : α → Except Err β} (h : Sim ibus obus m e)
    (hf : ∀ a, Sim ibus obus (f a) (g a)) : Sim ibus obus (m >>= f) (e >>= g) := by
  intro st hst
  have h := h st hst
  cases e with
  | error x =>
    obtain ⟨st', h⟩ := h
    refine ⟨st', ?_⟩
    show EStateM.bind m f st = _
    unfold EStateM.bind; rw [h]
  | ok a =>
    obtain ⟨st1, h, h1⟩ := h
    have h2 := hf a st1 h1
    have e : (m >>= f) st = f a st1 := by
      show EStateM.bind m f st = _
      unfold EStateM.bind; rw [h]
    show match g a with
      | .ok b => ∃ st', (m >>= f) st = .ok b st' ∧ At ibus obus st'
      | .error x => ∃ st', (m >>= f) st = .error x st'
    rw [e]; exact h2

theorem Sim.lift (e : Except Err α) : Sim ibus obus (liftE e) e := by
  intro st h
  cases e with
  | error x => exact ⟨st, rfl⟩
  | ok a => exact ⟨st, rfl, h⟩

theorem Sim.input (k : Key) : Sim ibus obus (inputAt k) (k.at ibus) := by
  intro st h
  unfold inputAt
  rw [bind_of_ok (get_apply st), h.1]
  cases e : k.at ibus with
  | error x => exact ⟨st, bind_of_error rfl⟩
  | ok s => exact ⟨_, bind_of_ok rfl, h.1, h.2⟩

theorem Sim.output (k : Key) : Sim ibus obus (outputAt k) (k.at obus) := by
  intro st h
  unfold outputAt
  rw [bind_of_ok (get_apply st), h.2]
  cases e : k.at obus with
  | error x => exact ⟨st, bind_of_error rfl⟩
  | ok s => exact ⟨_, bind_of_ok rfl, h.1, h.2⟩

/-- What `bindHandle` gives. -/
def handle (ty : HandleTy) (s : Signal) : Except Err SigId := if ty.accepts s then .ok s.id else .error (.exc .invalidType)

theorem Sim.bound (ty : HandleTy) (s : Signal) : Sim ibus obus (bindHandle ty s) (handle ty s) := by
  intro st h
  unfold bindHandle handle
  cases ty.accepts s with
  | true => exact ⟨st, rfl, h⟩
  | false => exact ⟨st, rfl⟩

theorem Sim.adjust (s : SigId) (f : Flags → Flags) : Sim ibus obus (adjustLink s f) (.ok ()) := fun _ h => ⟨_, rfl, h⟩

theorem Sim.deriv (o : SigId) (t : Ty) (i : Signal) : Sim ibus obus (connDeriv o t i) (setDeriv t none i).1 := by
  intro st h
  have e : (setDeriv t (st.d o) i).1 = (setDeriv t none i).1 := by
    unfold setDeriv
    split
    · rfl
    · split <;> rfl
    · rfl
  rw [← e]
  unfold connDeriv
  cases e1 : (setDeriv t (st.d o) i).1 with
  | error x => exact ⟨_, by simp only [e1]; rfl⟩
  | ok a => exact ⟨{ st with d := upd st.d o (setDeriv t (st.d o) i).2 }, by simp only [e1], h⟩

theorem Sim.verify (dbg b : Bool) (x : Exc) : Sim ibus obus (debugVerify dbg b x) (if dbg && !b then .error (.exc x) else .ok ()) := by
  intro st h
  cases dbg <;> cases b
  · exact ⟨st, rfl, h⟩
  · exact ⟨st, rfl, h⟩
  · exact ⟨st, rfl⟩
  · exact ⟨st, rfl, h⟩

/-- `Block::connect` checks the numbers of ports. -/
def ports (nIn nOut : Option Nat) (ibus obus : Entries) : Except Err Unit :=
  if nIn.any (fun n => ibus.length != n) then .error (.exc .iports)
  else if nOut.any (fun n => obus.length != n) then .error (.exc .oports) else .ok ()

/-- `connect` of a new object: how it ends depends on the buses alone. -/
def Fresh (ibus obus : Entries) (m : CM α) (e : Except Err α) : Prop :=
  ∀ d : Derivs, match e with
    | .ok a => ∃ st', m ⟨{}, d⟩ = .ok a st' ∧ At ibus obus st'
    | .error x => ∃ st', m ⟨{}, d⟩ = .error x st'

theorem Fresh.ports (nIn nOut : Option Nat) : Fresh ibus obus (blockConnect nIn nOut ibus obus) (ports nIn nOut ibus obus) := by
  intro d
  unfold blockConnect Accept.ports
  have h0 : ¬ ((⟨{}, d⟩ : CState).c.connected = true) := by simp
  rw [if_neg h0]
  by_cases h1 : (nIn.any fun n => ibus.length != n) = true
  · rw [if_pos h1, if_pos h1]; exact ⟨_, rfl⟩
  · rw [if_neg h1, if_neg h1]
    by_cases h2 : (nOut.any fun n => obus.length != n) = true
    · rw [if_pos h2, if_pos h2]; exact ⟨_, rfl⟩
    · rw [if_neg h2, if_neg h2]; exact ⟨_, rfl, rfl, rfl⟩

theorem Fresh.bind {m : CM α} {e : Except Err α} {f : α → CM β} {g : α → Except Err β} (h : Fresh ibus obus m e)
    (hf : ∀ a, Sim ibus obus (f a) (g a)) : Fresh ibus obus (m >>= f) (e >>= g) := by
  intro d
  have h := h d
  cases e with
  | error x =>
    obtain ⟨st', h⟩ := h
    exact ⟨st', bind_of_error h⟩
  | ok a =>
    obtain ⟨st1, h, h1⟩ := h
    have h2 := hf a st1 h1
    have e : (m >>= f) ⟨{}, d⟩ = f a st1 := bind_of_ok h
    show match g a with
      | .ok b => ∃ st', (m >>= f) ⟨{}, d⟩ = .ok b st' ∧ At ibus obus st'
      | .error x => ∃ st', (m >>= f) ⟨{}, d⟩ = .error x st'
    rw [e]; exact h2

/-- `connect` of the base classes. -/
def bounds (dbg : Bool) (ibus obus : Entries) : Cls → Except Err Bound
  | .sio ty | .memory ty => do
    ports (some 1) (some 1) ibus obus
    let x ← (Key.idx 0).at ibus
    let i ← handle ty.handle x
    let y ← (Key.idx 0).at obus
    let o ← handle ty.handle y
    .ok ⟨[i], some o⟩
  | .so ty n => do
    ports n (some 1) ibus obus
    let y ← (Key.idx 0).at obus
    let o ← handle ty.handle y
    .ok ⟨[], some o⟩
  | .fold ty => do
    ports none (some 1) ibus obus
    let y ← (Key.idx 0).at obus
    let o ← handle ty.handle y
    (if dbg && !(decide (1 ≤ ibus.length)) then .error (.exc .debugVerify) else .ok ())
    (if dbg && !(ibus.all (fun p => ty.handle.accepts p.2)) then .error (.exc .debugVerify) else .ok ())
    .ok ⟨ibus.map (fun p => p.2.id), some o⟩
  | .binary ty => do
    ports (some 2) (some 1) ibus obus
    let y ← (Key.idx 0).at obus
    let o ← handle ty.handle y
    let a ← (Key.idx 0).at ibus
    let a ← handle ty.handle a
    let b ← (Key.idx 1).at ibus
    let b ← handle ty.handle b
    .ok ⟨[a, b], some o⟩
  | .integrator ty => do
    ports (some 1) (some 1) ibus obus
    let y ← (Key.idx 0).at obus
    let o ← handle ty.handle y
    let x ← (Key.idx 0).at ibus
    (setDeriv (tyOf y) none x).1
    .ok ⟨[x.id], some o⟩
  | .trigInt ty => do
    ports (some 2) (some 1) ibus obus
    let y ← (Key.idx 0).at obus
    let o ← handle ty.handle y
    let x ← (Key.idx 0).at ibus
    (setDeriv (tyOf y) none x).1
    let tr ← (Key.label (str "trigger")).at ibus
    let tr ← handle .bool tr
    .ok ⟨[x.id, tr], some o⟩
  | .delay ty => do
    ports (some 3) (some 1) ibus obus
    let y ← (Key.idx 0).at obus
    let o ← handle ty.handle y
    let x ← (Key.label (str "in")).at ibus
    let x ← handle ty.handle x
    let d ← (Key.label (str "delay")).at ibus
    let d ← handle .scalar d
    let i ← (Key.label (str "initial")).at ibus
    let i ← handle ty.handle i
    .ok ⟨[x, d, i], some o⟩
  | .plain n m => do
    ports n m ibus obus
    .ok ⟨[], none⟩

theorem Sim.bindIn (ty : VTy) : Sim ibus obus (bindIn ty) (do let x ← (Key.idx 0).at ibus; handle ty.handle x) :=
  .bind (.input _) fun _ => .bound _ _

theorem Sim.bindOut (ty : VTy) : Sim ibus obus (bindOut ty) (do let x ← (Key.idx 0).at obus; handle ty.handle x) :=
  .bind (.output _) fun _ => .bound _ _

theorem Sim.cast {m : CM α} {e e' : Except Err α} (h : Sim ibus obus m e) (he : e = e') : Sim ibus obus m e' := he ▸ h

theorem skip {e : Except Err β} : ((Except.ok a : Except Err α) >>= fun _ => e) = e := rfl

theorem assoc (e : Except Err α) (f : α → Except Err β) (g : β → Except Err γ) : (e >>= f) >>= g = e >>= fun a => f a >>= g := by
  cases e <;> rfl

theorem fresh_cls (dbg : Bool) (c : Cls) : Fresh ibus obus (c.connect dbg ibus obus) (bounds dbg ibus obus c) := by
  cases c with
  | sio ty =>
    refine .bind (.ports _ _) fun _ => (Sim.bind (.bindIn ty) fun i => .bind (.bindOut ty) fun o => .pure _).cast ?_
    simp only [assoc]
  | memory ty =>
    refine .bind (.ports _ _) fun _ => (Sim.bind (.bindIn ty) fun i => .bind (.bindOut ty) fun o => .bind (.adjust _ _) fun _ => .pure _).cast ?_
    simp only [assoc, skip]
  | so ty n =>
    refine .bind (.ports _ _) fun _ => (Sim.bind (.bindOut ty) fun o => .pure _).cast ?_
    simp only [assoc]
  | fold ty =>
    refine .bind (.ports _ _) fun _ => (Sim.bind (.bindOut ty) fun o => .bind (.verify _ _ _) fun _ => .bind (.verify _ _ _) fun _ => .pure _).cast ?_
    simp only [assoc]
  | binary ty =>
    refine .bind (.ports _ _) fun _ => (Sim.bind (.bindOut ty) fun o => .bind (.input _) fun _ => .bind (.bound _ _) fun _ => .bind (.input _) fun _ =>
      .bind (.bound _ _) fun _ => .pure _).cast ?_
    simp only [assoc]
  | integrator ty =>
    refine .bind (.ports _ _) fun _ => (Sim.bind (.output _) fun os => .bind (.bound _ _) fun o => .bind (.input _) fun i => .bind (.deriv _ _ _) fun _ =>
      .bind (.adjust _ _) fun _ => .bind (.adjust _ _) fun _ => .pure _).cast ?_
    simp only [skip]
  | trigInt ty =>
    refine .bind (.ports _ _) fun _ => (Sim.bind (.output _) fun os => .bind (.bound _ _) fun o => .bind (.input _) fun i => .bind (.deriv _ _ _) fun _ =>
      .bind (.adjust _ _) fun _ => .bind (.adjust _ _) fun _ => .bind (.input _) fun _ => .bind (.bound _ _) fun _ => .pure _).cast ?_
    simp only [skip]
  | delay ty =>
    refine .bind (.ports _ _) fun _ => (Sim.bind (.bindOut ty) fun o => .bind (.input _) fun _ => .bind (.bound _ _) fun _ => .bind (.input _) fun _ =>
      .bind (.bound _ _) fun _ => .bind (.input _) fun _ => .bind (.bound _ _) fun _ => .pure _).cast ?_
    simp only [assoc]
  | plain n m => exact .bind (.ports _ _) fun _ => .pure _

theorem lookupVals_cons (es : Entries) (k : Key) (ks : List Key) :
    lookupVals es (k :: ks) = lookupVal es k >>= fun i => lookupVals es ks >>= fun is => .ok (i :: is) := by
  conv => lhs; unfold lookupVals
  cases lookupVal es k with
  | error e => rfl
  | ok i =>
    show _ = (lookupVals es ks >>= fun is => .ok (i :: is))
    cases lookupVals es ks <;> rfl

theorem Sim.inputs (ks : List Key) : Sim ibus obus (inputsAt ks) (lookupVals ibus ks) := by
  induction ks with
  | nil => exact .pure _
  | cons k ks ih =>
    have h : Sim ibus obus (inputsAt (k :: ks)) (k.at ibus >>= fun s => match s with
        | .bus _ _ => .error (.exc .invalidType)
        | .val i _ => lookupVals ibus ks >>= fun is => .ok (i :: is)) := by
      refine .bind (.input k) fun s => ?_
      cases s with
      | bus _ _ => exact fun st h => ⟨st, rfl⟩
      | val i t => exact .bind ih fun is => .pure _
    refine h.cast ?_
    rw [lookupVals_cons]
    unfold lookupVal
    cases k.at ibus with
    | error e => rfl
    | ok s => cases s <;> rfl

theorem Sim.outputs (ks : List Key) : Sim ibus obus (outputsAt ks) (lookupVals obus ks) := by
  induction ks with
  | nil => exact .pure _
  | cons k ks ih =>
    have h : Sim ibus obus (outputsAt (k :: ks)) (k.at obus >>= fun s => match s with
        | .bus _ _ => .error (.exc .invalidType)
        | .val i _ => lookupVals obus ks >>= fun is => .ok (i :: is)) := by
      refine .bind (.output k) fun s => ?_
      cases s with
      | bus _ _ => exact fun st h => ⟨st, rfl⟩
      | val i t => exact .bind ih fun is => .pure _
    refine h.cast ?_
    rw [lookupVals_cons]
    unfold lookupVal
    cases k.at obus with
    | error e => rfl
    | ok s => cases s <;> rfl

/-- `connect` of an object. -/
def made (dbg : Bool) (ibus obus : Entries) (mk : Make K) : Except Err (Kind K) := do
  let b ← bounds dbg ibus obus mk.cls
  match mk with
  | .custom _ _ ins outs c => do
    let is ← lookupVals ibus ins
    let os ← lookupVals obus outs
    .ok (.custom (c is os))
  | _ => mk.kind ibus obus b

theorem fresh_made (dbg : Bool) (mk : Make K) : Fresh ibus obus (mk.connect dbg ibus obus) (made dbg ibus obus mk) := by
  unfold Make.connect made
  refine .bind (fresh_cls dbg mk.cls) fun b => ?_
  cases mk with
  | custom n m ins outs c => exact .bind (.inputs _) fun is => .bind (.outputs _) fun os => .pure _
  | _ => exact .lift _

/-! ### The parts -/

theorem bind_ok_iff (e : Except Err α) (f : α → Except Err β) (b : β) : (e >>= f) = .ok b ↔ ∃ a, e = .ok a ∧ f a = .ok b := by
  cases e with
  | error x => exact ⟨(fun h => by cases h), fun ⟨_, h, _⟩ => by cases h⟩
  | ok a => exact ⟨fun h => ⟨a, rfl, h⟩, fun ⟨_, h, h'⟩ => by cases h; exact h'⟩

/-- Nothing but exceptions. -/
def Throws (e : Except Err α) : Prop := ∀ x, e = .error x → ∃ y, x = .exc y

theorem Throws.ok (a : α) : Throws (.ok a) := fun _ h => by cases h

theorem Throws.exc (x : Exc) : Throws (.error (.exc x) : Except Err α) := fun _ h => by cases h; exact ⟨_, rfl⟩

theorem Throws.bind {e : Except Err α} {f : α → Except Err β} (h : Throws e) (hf : ∀ a, e = .ok a → Throws (f a)) : Throws (e >>= f) := by
  cases e with
  | error x => intro y hy; cases hy; exact h x rfl
  | ok a => exact hf a rfl

theorem Throws.ite {c : Bool} {x : Exc} : Throws (if c then .error (.exc x) else .ok () : Except Err Unit) := by
  cases c
  · exact .ok _
  · exact .exc _

theorem Throws.key (k : Key) (es : Entries) : Throws (k.at es) := by
  intro x h
  cases k with
  | idx i =>
    simp only [Key.at, busAtIdx] at h
    split at h <;> cases h
    exact ⟨_, rfl⟩
  | label l =>
    obtain ⟨segs, hs⟩ := isPath_exists l
    simp only [Key.at, busAt_eq_resolve hs] at h
    obtain ⟨y, e, _⟩ := (resolve_error hs.ne).1 h
    exact ⟨y, e⟩

theorem Throws.handle (ty : HandleTy) (s : Signal) : Throws (handle ty s) := by
  unfold Accept.handle
  split
  · exact .ok _
  · exact .exc _

theorem Throws.ports (n m : Option Nat) : Throws (ports n m ibus obus) := by
  unfold Accept.ports
  split
  · exact .exc _
  · split
    · exact .exc _
    · exact .ok _

theorem Throws.deriv (t : Ty) (s : Signal) : Throws (setDeriv t none s).1 := by
  unfold setDeriv
  split
  · exact .ok _
  · split
    · exact .ok _
    · exact .exc _
  · exact .exc _

theorem Throws.lookups (es : Entries) (ks : List Key) : Throws (lookupVals es ks) := by
  induction ks with
  | nil => exact .ok _
  | cons k ks ih =>
    rw [lookupVals_cons]
    refine .bind ?_ fun _ _ => .bind ih fun _ _ => .ok _
    intro x h
    unfold lookupVal at h
    split at h
    · cases h
    · cases h; exact ⟨_, rfl⟩
    · rename_i e
      cases h
      exact Throws.key k es _ e

theorem ports_ok (n m : Option Nat) (u : Unit) : ports n m ibus obus = .ok u ↔ ibus.Count n ∧ obus.Count m := by
  have key : ∀ (k : Option Nat) (es : Entries), k.any (fun n => es.length != n) = true ↔ ¬ es.Count k := by
    intro k es
    unfold Entries.Count
    cases k with
    | none => simp
    | some a => simp
  unfold ports
  by_cases h1 : ibus.Count n
  · rw [if_neg (fun h => (key _ _).1 h h1)]
    by_cases h2 : obus.Count m
    · rw [if_neg (fun h => (key _ _).1 h h2)]
      exact ⟨fun _ => ⟨h1, h2⟩, fun _ => rfl⟩
    · rw [if_pos ((key _ _).2 h2)]
      exact ⟨(fun h => by cases h), fun h => (h2 h.2).elim⟩
  · rw [if_pos ((key _ _).2 h1)]
    exact ⟨(fun h => by cases h), fun h => (h1 h.1).elim⟩

theorem idx_ok (es : Entries) (i : Nat) (s : Signal) : (Key.idx i).at es = .ok s ↔ ∃ l, es[i]? = some (l, s) := by
  simp only [Key.at, busAtIdx]
  cases h : es[i]? with
  | none => simp
  | some q => obtain ⟨l, x⟩ := q; simp

theorem label_ok (es : Entries) (l : Str) (s : Signal) (h : (46 : UInt8) ∉ l) : (Key.label l).at es = .ok s ↔ FirstWith es l s := by
  have hs : IsPath l [l] := ⟨by simp, by simpa using h, by simp [List.intercalate]⟩
  simp only [Key.at, busAt_eq_resolve hs, resolve_ok]
  constructor
  · rintro (h | ⟨_, h⟩)
    · exact h
    · cases h
  · exact .last

theorem accepts_iff (ty : VTy) (s : Signal) : ty.handle.accepts s = true ↔ ∃ i, s.IsOf ty i := by
  unfold Signal.IsOf
  cases s with
  | bus a es => cases ty <;> simp [HandleTy.accepts, VTy.handle]
  | val a t => cases ty <;> cases t <;> simp [HandleTy.accepts, VTy.handle, Ty.vty]

theorem handle_ok (ty : VTy) (s : Signal) (i : SigId) : handle ty.handle s = .ok i ↔ s.IsOf ty i := by
  unfold handle
  cases h : ty.handle.accepts s with
  | false =>
    refine ⟨(fun h => by cases h), fun h' => ?_⟩
    have := (accepts_iff ty s).2 ⟨i, h'⟩
    rw [h] at this; cases this
  | true =>
    obtain ⟨j, t, rfl, ht⟩ := (accepts_iff ty s).1 h
    constructor
    · intro e; cases e; exact ⟨t, rfl, ht⟩
    · rintro ⟨t', e, _⟩; cases e; rfl

theorem deriv_ok (t : Ty) (x : Signal) (u : Unit) : (setDeriv t none x).1 = .ok u ↔ (t.vty = .double ∨ t.vty = .array) ∧ ∃ s, x = .val s t := by
  cases x with
  | bus a es => cases t <;> simp [setDeriv]
  | val a t' =>
    cases t <;> cases t' <;> simp [setDeriv, Ty.vty]
    rename_i n m
    by_cases h : n = m
    · simp [h]
    · simp [h, Ne.symm h]

theorem lookups_ok (es : Entries) (ks : List Key) (is : List SigId) : lookupVals es ks = .ok is ↔ List.Forall₂ (Key.Leads es) ks is := by
  have key : ∀ k i, lookupVal es k = .ok i ↔ k.Leads es i := by
    intro k i
    have h1 : lookupVal es k = .ok i ↔ ∃ t, k.at es = .ok (.val i t) := by
      unfold lookupVal
      cases k.at es with
      | error e => simp
      | ok s => cases s <;> simp
    rw [h1]
    cases k with
    | idx j => simp only [idx_ok, Key.Leads]; exact ⟨fun ⟨t, l, h⟩ => ⟨l, t, h⟩, fun ⟨l, t, h⟩ => ⟨t, l, h⟩⟩
    | label l =>
      obtain ⟨segs, hs⟩ := isPath_exists l
      simp only [Key.at, busAt_eq_resolve hs, resolve_ok, Key.Leads]
      exact ⟨fun ⟨t, h⟩ => ⟨segs, t, hs, h⟩, fun ⟨segs', t, hs', h⟩ => ⟨t, isPath_unique hs' hs ▸ h⟩⟩
  induction ks generalizing is with
  | nil =>
    constructor
    · intro h; cases h; exact .nil
    · intro h; cases h; rfl
  | cons k ks ih =>
    rw [lookupVals_cons]
    simp only [bind_ok_iff, key, ih]
    constructor
    · rintro ⟨i, h1, js, h2, e⟩; cases e; exact .cons h1 h2
    · intro h; cases h with
      | cons h1 h2 => exact ⟨_, h1, _, h2, rfl⟩

end Pooya.Accept
