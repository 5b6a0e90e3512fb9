import Verif.Model.Connect
import Verif.Proof.Monad

/-! # C14 — connect links every port once -/

namespace Pooya.C14

/-- Identities of the top-level value signals of a bus, in order. -/
def valueIds (es : Entries) : List SigId :=
  es.filterMap (fun p => match p.2 with | .val i _ => some i | .bus _ _ => none)

/-- Specification: the type bits of signal `i` of a block connected to the two buses. -/
def linkType (ibus obus : Entries) (i : SigId) : Flags :=
  (if i ∈ valueIds ibus then Flags.input ||| Flags.required else 0#32) |||
  (if i ∈ valueIds obus then Flags.output else 0#32)

/-- Specification: the linked signals, first appearances only, with the given types. -/
def linkList (ibus obus : Entries) (f : SigId → Flags) : List (SigId × Flags) :=
  (valueIds ibus ++ valueIds obus).eraseDups.map (fun i => (i, f i))

theorem nodup_eraseDups (l : List Nat) : l.eraseDups.Nodup := by
  generalize hn : l.length = n
  induction n using Nat.strongRecOn generalizing l with
  | ind n ih =>
    cases l with
    | nil => simp
    | cons a l =>
      rw [List.eraseDups_cons]
      have hlen : (l.filter (fun b => !b == a)).length < n := by
        have := List.length_filter_le (fun b => !b == a) l
        simp at hn; omega
      refine List.nodup_cons.2 ⟨?_, ih _ hlen _ rfl⟩
      simp [List.mem_eraseDups]

theorem updLink_map {l : List SigId} (hn : l.Nodup) (f : SigId → Flags) (g : Flags → Flags) (s : SigId) :
    updLink s g (l.map (fun i => (i, f i))) =
      if s ∈ l then some (l.map (fun i => (i, if i = s then g (f i) else f i))) else none := by
  induction l with
  | nil => simp [updLink]
  | cons a l ih =>
    have hn' := List.nodup_cons.1 hn
    simp only [List.map_cons, updLink]
    by_cases h : a = s
    · subst h
      simp
      intro b hb hba; subst hba; exact (hn'.1 hb).elim
    · rw [if_neg h, ih hn'.2]
      have : ¬ s = a := fun e => h e.symm
      by_cases h2 : s ∈ l <;> simp [h2, this, h]

theorem eraseDups_snoc (l : List SigId) (a : SigId) :
    (l ++ [a]).eraseDups = if a ∈ l then l.eraseDups else l.eraseDups ++ [a] := by
  rw [List.eraseDups_append]
  by_cases h : a ∈ l <;> simp [List.removeAll, h, List.eraseDups_cons]

theorem linkSignal_val (l : List SigId) (f : SigId → Flags) (i : SigId) (ty : Ty) (types : Flags)
    (hf : ∀ j, j ∉ l → f j = 0#32) :
    linkSignal (l.eraseDups.map (fun j => (j, f j))) (.val i ty) types =
      (l ++ [i]).eraseDups.map (fun j => (j, if j = i then f j ||| types else f j)) := by
  simp only [linkSignal]
  rw [updLink_map (nodup_eraseDups l), eraseDups_snoc]
  by_cases h : i ∈ l
  · simp [h]
  · have h0 := hf i h
    simp [h, h0]
    intro j hj hji; subst hji; exact (h hj).elim

theorem linkEntries_spec (types : Flags) (es : Entries) (l : List SigId) (f : SigId → Flags)
    (hf : ∀ j, j ∉ l → f j = 0#32) :
    linkEntries types (l.eraseDups.map (fun j => (j, f j))) es =
      (l ++ valueIds es).eraseDups.map
        (fun j => (j, f j ||| (if j ∈ valueIds es then types else 0#32))) := by
  induction es generalizing l f with
  | nil => simp [linkEntries, valueIds]
  | cons p es ih =>
    obtain ⟨a, s⟩ := p
    cases s with
    | bus i es' =>
      have e : valueIds ((a, Signal.bus i es') :: es) = valueIds es := rfl
      rw [e]
      exact ih l f hf
    | val i ty =>
      simp only [linkEntries]
      rw [linkSignal_val l f i ty types hf, ih]
      · have e : valueIds ((a, Signal.val i ty) :: es) = i :: valueIds es := rfl
        rw [e, List.append_assoc, List.singleton_append]
        apply List.map_congr_left
        intro j _
        by_cases hj : j = i <;> by_cases hm : j ∈ valueIds es <;> simp [hj, hm, BitVec.or_assoc]
        all_goals (subst hj; simp [hm])
      · intro j hj
        simp at hj
        simp [hj.2, hf j hj.1]

/-- C14: `Block::connect` succeeds exactly if the block is unconnected and the port numbers fit; on
success it stores the buses, marks the block connected and links every top-level value signal once. -/
theorem C14_connect (nIn nOut : Option Nat) (ibus obus : Entries) (d : Derivs)
    (hi : ∀ n, nIn = some n → ibus.length = n) (ho : ∀ n, nOut = some n → obus.length = n) :
    blockConnect nIn nOut ibus obus ⟨{}, d⟩ =
      .ok () ⟨{ connected := true, ibus := ibus, obus := obus,
                links := linkList ibus obus (linkType ibus obus) }, d⟩ := by
  have h1 : (nIn.any fun n => ibus.length != n) = false := by
    cases nIn with
    | none => rfl
    | some n => simp [hi n rfl]
  have h2 : (nOut.any fun n => obus.length != n) = false := by
    cases nOut with
    | none => rfl
    | some n => simp [ho n rfl]
  have e1 := linkEntries_spec (Flags.input ||| Flags.required) ibus [] (fun _ => 0#32) (by simp)
  simp only [List.nil_append] at e1
  have e0 : List.map (fun j => (j, 0#32)) (List.eraseDups ([] : List SigId)) = [] := rfl
  rw [e0] at e1
  have e2 := linkEntries_spec Flags.output obus (valueIds ibus)
    (fun j => 0#32 ||| (if j ∈ valueIds ibus then Flags.input ||| Flags.required else 0#32))
    (by intro j hj; simp [hj])
  simp only [blockConnect, h1, h2]
  rw [e1, e2]
  simp [linkList, linkType]

/-- C14: in all other cases it throws and changes nothing. -/
theorem C14_throws (nIn nOut : Option Nat) (ibus obus : Entries) (st : CState) :
    (st.c.connected = true → blockConnect nIn nOut ibus obus st = .error (.exc .reconnect) st) ∧
    (st.c.connected = false → (∃ n, nIn = some n ∧ ibus.length ≠ n) →
      blockConnect nIn nOut ibus obus st = .error (.exc .iports) st) ∧
    (st.c.connected = false → (∀ n, nIn = some n → ibus.length = n) →
      (∃ n, nOut = some n ∧ obus.length ≠ n) →
      blockConnect nIn nOut ibus obus st = .error (.exc .oports) st) := by
  refine ⟨fun h => by simp [blockConnect, h], ?_, ?_⟩
  · rintro h ⟨n, rfl, hn⟩
    simp [blockConnect, h, hn]
  · rintro h hi ⟨n, rfl, hn⟩
    have h1 : (nIn.any fun n => ibus.length != n) = false := by
      cases nIn with
      | none => rfl
      | some n => simp [hi n rfl]
    simp [blockConnect, h, h1, hn]

/-- Every linked signal appears once. -/
theorem C14_once (ibus obus : Entries) (f : SigId → Flags) :
    ((linkList ibus obus f).map Prod.fst).Nodup ∧
    (∀ i g, (i, g) ∈ linkList ibus obus f ↔ (i ∈ valueIds ibus ∨ i ∈ valueIds obus) ∧ g = f i) := by
  constructor
  · have : (linkList ibus obus f).map Prod.fst = (valueIds ibus ++ valueIds obus).eraseDups := by
      simp [linkList, Function.comp_def]
    rw [this]; exact nodup_eraseDups _
  · intro i g
    simp only [linkList, List.mem_map, List.mem_eraseDups, List.mem_append, Prod.mk.injEq]
    constructor
    · rintro ⟨j, hj, rfl, rfl⟩; exact ⟨hj, rfl⟩
    · rintro ⟨hj, rfl⟩; exact ⟨i, hj, rfl, rfl⟩

/-! ## The leaf classes: which inputs hold back the block -/

/-- Port numbers of the classes. -/
def ports : Cls → Option Nat × Option Nat
  | .sio _ | .memory _ | .integrator _ => (some 1, some 1)
  | .so _ n => (n, some 1)
  | .fold _ => (none, some 1)
  | .binary _ | .trigInt _ => (some 2, some 1)
  | .delay _ => (some 3, some 1)
  | .plain a b => (a, b)

/-- Specification of the link types of a connected leaf: those of `Block::connect`, except that Memory
does not require its input, and an integrator requires its output instead of its input (and its
trigger, if it has one). -/
def clsType (c : Cls) (ibus obus : Entries) (b : Bound) (i : SigId) : Flags :=
  match c, b.ins, b.out with
  | .memory _, [x], _ => if i = x then linkType ibus obus i &&& ~~~Flags.required else linkType ibus obus i
  | .integrator _, [x], some o =>
    let g := if i = x then linkType ibus obus i &&& ~~~Flags.required else linkType ibus obus i
    if i = o then g ||| Flags.required else g
  | .trigInt _, [x, tr], some o =>
    let g := if i = x then linkType ibus obus i &&& ~~~Flags.required else linkType ibus obus i
    let g := if i = o then g ||| Flags.required else g
    if i = tr then g ||| (Flags.input ||| Flags.required) else g
  | _, _, _ => linkType ibus obus i

theorem mem_valueIds {es : Entries} {k : Str} {i : SigId} {ty : Ty} (h : (k, Signal.val i ty) ∈ es) :
    i ∈ valueIds es := by
  simp only [valueIds, List.mem_filterMap]
  exact ⟨_, h, rfl⟩

theorem linkSignal_present (ibus obus : Entries) (f : SigId → Flags) (i : SigId) (ty : Ty) (types : Flags)
    (h : i ∈ valueIds ibus ∨ i ∈ valueIds obus) :
    linkSignal (linkList ibus obus f) (.val i ty) types =
      linkList ibus obus (fun j => if j = i then f j ||| types else f j) := by
  simp only [linkSignal, linkList]
  rw [updLink_map (nodup_eraseDups _)]
  have : i ∈ (valueIds ibus ++ valueIds obus).eraseDups := by simpa [List.mem_eraseDups] using h
  simp [this]

theorem adjust_present (ibus obus : Entries) (f : SigId → Flags) (i : SigId) (g : Flags → Flags)
    (h : i ∈ valueIds ibus ∨ i ∈ valueIds obus) :
    (updLink i g (linkList ibus obus f)).getD (linkList ibus obus f) =
      linkList ibus obus (fun j => if j = i then g (f j) else f j) := by
  simp only [linkList]
  rw [updLink_map (nodup_eraseDups _)]
  have : i ∈ (valueIds ibus ++ valueIds obus).eraseDups := by simpa [List.mem_eraseDups] using h
  simp [this]

theorem linkType_in {ibus obus : Entries} {i : SigId} (h : i ∈ valueIds ibus) :
    linkType ibus obus i ||| (Flags.input ||| Flags.required) = linkType ibus obus i := by
  simp only [linkType, h, if_true]
  split <;> decide +kernel

theorem linkType_out {ibus obus : Entries} {i : SigId} (h : i ∈ valueIds obus) :
    linkType ibus obus i ||| Flags.output = linkType ibus obus i := by
  simp only [linkType, h, if_true]
  split <;> decide +kernel

/-- State of a connection attempt after the base class' `connect`, with link types `f`. -/
def After (ibus obus : Entries) (f : SigId → Flags) (st : CState) : Prop :=
  st.c = { connected := true, ibus := ibus, obus := obus, links := linkList ibus obus f }

theorem after_congr {ibus obus : Entries} {f g : SigId → Flags} {st : CState}
    (h : After ibus obus f st) (e : ∀ i, f i = g i) : After ibus obus g st := by
  have : f = g := funext e
  subst this; exact h

theorem blockConnect_ok {nI nO : Option Nat} {ibus obus : Entries} {d : Derivs} {st' : CState}
    (h : blockConnect nI nO ibus obus ⟨{}, d⟩ = .ok () st') :
    After ibus obus (linkType ibus obus) st' := by
  have t := C14_throws nI nO ibus obus ⟨{}, d⟩
  by_cases h1 : ∀ n, nI = some n → ibus.length = n
  · by_cases h2 : ∀ n, nO = some n → obus.length = n
    · rw [C14_connect nI nO ibus obus d h1 h2] at h
      simp at h; subst h; rfl
    · have h2' : ∃ n, nO = some n ∧ obus.length ≠ n := by simpa using h2
      rw [t.2.2 rfl h1 h2'] at h; simp at h
  · have h1' : ∃ n, nI = some n ∧ ibus.length ≠ n := by simpa using h1
    rw [t.2.1 rfl h1'] at h; simp at h

/-- A lookup that yields a value signal yields one of the top-level entries. -/
def Top (k : Key) : Prop := ∀ (es : Entries) (i : SigId) (ty : Ty), k.at es = .ok (.val i ty) → i ∈ valueIds es

theorem top_idx (n : Nat) : Top (.idx n) := by
  intro es i ty h
  simp only [Key.at, busAtIdx] at h
  split at h
  · cases h
  · rename_i a b hs
    simp at h; subst h
    exact mem_valueIds (List.mem_of_getElem? hs)

theorem findLabel_mem {es : Entries} {l : Str} {s : Signal} (h : findLabel es l = some s) :
    (l, s) ∈ es := by
  induction es with
  | nil => simp [findLabel] at h
  | cons p es ih =>
    obtain ⟨k, s'⟩ := p
    simp only [findLabel] at h
    split at h
    · rename_i hk; simp at h; simp [h, hk]
    · exact List.mem_cons_of_mem _ (ih h)

theorem top_label (l : Str) (hl : (splitDot l).2 = none) : Top (.label l) := by
  intro es i ty h
  simp only [Key.at] at h
  unfold busAt at h
  split at h
  · split at h
    · cases h
    · rename_i s' hf; simp at h; subst h; exact mem_valueIds (findLabel_mem hf)
  · rename_i l' r hs; rw [hs] at hl; cases hl

theorem inputAt_after {ibus obus : Entries} {f : SigId → Flags} {k : Key} (hk : Top k) {st st' : CState}
    {i : SigId} {ty : Ty} (hA : After ibus obus f st) (h : inputAt k st = .ok (.val i ty) st') :
    i ∈ valueIds ibus ∧
    After ibus obus (fun j => if j = i then f j ||| (Flags.input ||| Flags.required) else f j) st' := by
  simp only [inputAt, bind_ok, get_apply] at h
  obtain ⟨_, _, h1, s1, _, h2, _, _, h3, h4⟩ := h
  simp at h1; obtain ⟨rfl, rfl⟩ := h1
  rw [liftE_eq_ok] at h2; obtain ⟨h2, rfl⟩ := h2
  simp at h3 h4; obtain ⟨rfl, rfl⟩ := h4; subst h3
  simp only [After] at hA ⊢
  rw [hA] at h2
  have hi := hk ibus i ty h2
  refine ⟨hi, ?_⟩
  rw [hA]
  simp only [linkSignal_present ibus obus f i ty _ (Or.inl hi)]

theorem outputAt_after {ibus obus : Entries} {f : SigId → Flags} {k : Key} (hk : Top k) {st st' : CState}
    {i : SigId} {ty : Ty} (hA : After ibus obus f st) (h : outputAt k st = .ok (.val i ty) st') :
    i ∈ valueIds obus ∧
    After ibus obus (fun j => if j = i then f j ||| Flags.output else f j) st' := by
  simp only [outputAt, bind_ok, get_apply] at h
  obtain ⟨_, _, h1, s1, _, h2, _, _, h3, h4⟩ := h
  simp at h1; obtain ⟨rfl, rfl⟩ := h1
  rw [liftE_eq_ok] at h2; obtain ⟨h2, rfl⟩ := h2
  simp at h3 h4; obtain ⟨rfl, rfl⟩ := h4; subst h3
  simp only [After] at hA ⊢
  rw [hA] at h2
  have hi := hk obus i ty h2
  refine ⟨hi, ?_⟩
  rw [hA]
  simp only [linkSignal_present ibus obus f i ty _ (Or.inr hi)]

theorem bindHandle_val {ty : HandleTy} (hty : ty ≠ .bus) {s : Signal} {st st' : CState} {i : SigId}
    (h : bindHandle ty s st = .ok i st') : (∃ vt, s = .val i vt) ∧ st' = st := by
  simp only [bindHandle] at h
  split at h
  · rename_i ha; simp at h
    obtain ⟨rfl, rfl⟩ := h
    refine ⟨?_, rfl⟩
    cases s with
    | val j t => exact ⟨t, rfl⟩
    | bus j es => cases ty <;> simp [HandleTy.accepts] at ha; exact (hty rfl).elim
  · simp at h

theorem vty_ne_bus (ty : VTy) : ty.handle ≠ .bus := by cases ty <;> simp [VTy.handle]

theorem inputBind {ibus obus : Entries} {f : SigId → Flags} {k : Key} (hk : Top k) {st s1 st' : CState}
    {ty : HandleTy} (hty : ty ≠ .bus) {s : Signal} {i : SigId} (hA : After ibus obus f st)
    (h1 : inputAt k st = .ok s s1) (h2 : bindHandle ty s s1 = .ok i st') :
    i ∈ valueIds ibus ∧
    After ibus obus (fun j => if j = i then f j ||| (Flags.input ||| Flags.required) else f j) st' := by
  obtain ⟨⟨vt, rfl⟩, rfl⟩ := bindHandle_val hty h2
  exact inputAt_after hk hA h1

theorem outputBind {ibus obus : Entries} {f : SigId → Flags} {k : Key} (hk : Top k) {st s1 st' : CState}
    {ty : HandleTy} (hty : ty ≠ .bus) {s : Signal} {i : SigId} (hA : After ibus obus f st)
    (h1 : outputAt k st = .ok s s1) (h2 : bindHandle ty s s1 = .ok i st') :
    i ∈ valueIds obus ∧
    After ibus obus (fun j => if j = i then f j ||| Flags.output else f j) st' := by
  obtain ⟨⟨vt, rfl⟩, rfl⟩ := bindHandle_val hty h2
  exact outputAt_after hk hA h1

/-- Linking an input again changes nothing. -/
theorem in_again {ibus obus : Entries} {i : SigId} (hi : i ∈ valueIds ibus) {st : CState}
    (h : After ibus obus (fun j => if j = i then linkType ibus obus j ||| (Flags.input ||| Flags.required)
      else linkType ibus obus j) st) : After ibus obus (linkType ibus obus) st := by
  apply after_congr h
  intro j
  by_cases e : j = i
  · subst e; simp [linkType_in hi]
  · simp [e]

theorem out_again {ibus obus : Entries} {i : SigId} (hi : i ∈ valueIds obus) {st : CState}
    (h : After ibus obus (fun j => if j = i then linkType ibus obus j ||| Flags.output
      else linkType ibus obus j) st) : After ibus obus (linkType ibus obus) st := by
  apply after_congr h
  intro j
  by_cases e : j = i
  · subst e; simp [linkType_out hi]
  · simp [e]

theorem adjust_after {ibus obus : Entries} {f : SigId → Flags} {i : SigId} {g : Flags → Flags}
    {st st' : CState} (hi : i ∈ valueIds ibus ∨ i ∈ valueIds obus) (hA : After ibus obus f st)
    (h : adjustLink i g st = .ok () st') :
    After ibus obus (fun j => if j = i then g (f j) else f j) st' := by
  simp only [adjustLink, EStateM.Result.ok.injEq, true_and] at h
  subst h
  simp only [After] at hA ⊢
  rw [hA]
  simp only [adjust_present ibus obus f i g hi]

theorem connDeriv_after {ibus obus : Entries} {f : SigId → Flags} {o : SigId} {oty : Ty} {d : Signal}
    {st st' : CState} (hA : After ibus obus f st) (h : connDeriv o oty d st = .ok () st') :
    (∃ vt, d = .val d.id vt) ∧ After ibus obus f st' := by
  simp only [connDeriv] at h
  split at h
  · rename_i h1; simp at h; subst h
    refine ⟨?_, hA⟩
    cases d with
    | val j t => exact ⟨t, rfl⟩
    | bus j es => cases oty <;> simp [setDeriv] at h1
  · simp at h

theorem integ_after {ibus obus : Entries} {ty : VTy} {st s1 s2 s3 s4 s5 s6 : CState} {os i : Signal}
    {o : SigId} (hA : After ibus obus (linkType ibus obus) st)
    (h1 : outputAt (.idx 0) st = .ok os s1) (h2 : bindHandle ty.handle os s1 = .ok o s2)
    (h3 : inputAt (.idx 0) s2 = .ok i s3) (h4 : connDeriv o (tyOf os) i s3 = .ok () s4)
    (h5 : adjustLink i.id (fun g => g &&& ~~~Flags.required) s4 = .ok () s5)
    (h6 : adjustLink o (fun g => g ||| Flags.required) s5 = .ok () s6) :
    After ibus obus (clsType (.integrator ty) ibus obus ⟨[i.id], some o⟩) s6 := by
  obtain ⟨ho, hA1⟩ := outputBind (top_idx 0) (vty_ne_bus ty) hA h1 h2
  have hA1 := out_again ho hA1
  have hi : ∃ vt, i = .val i.id vt := by
    simp only [connDeriv] at h4
    split at h4
    · rename_i h1
      cases i with
      | val j t => exact ⟨t, rfl⟩
      | bus j es => cases h : tyOf os <;> rw [h] at h1 <;> simp [setDeriv] at h1
    · simp at h4
  obtain ⟨vt, hi⟩ := hi
  rw [hi] at h3
  obtain ⟨hiv, hA2⟩ := inputAt_after (top_idx 0) hA1 h3
  have hA2 := in_again hiv hA2
  obtain ⟨_, hA3⟩ := connDeriv_after hA2 h4
  have hA4 := adjust_after (Or.inl hiv) hA3 h5
  exact adjust_after (Or.inr ho) hA4 h6

/-- C14: the links of every leaf class after a successful `connect` of a fresh block. -/
theorem C14_class_links (dbg : Bool) (c : Cls) (ibus obus : Entries) (d : Derivs) (b : Bound)
    (st' : CState) (h : c.connect dbg ibus obus ⟨{}, d⟩ = .ok b st') :
    st'.c = { connected := true, ibus := ibus, obus := obus,
              links := linkList ibus obus (clsType c ibus obus b) } := by
  show After ibus obus (clsType c ibus obus b) st'
  cases c with
  | sio ty =>
    simp only [Cls.connect, bindIn, bindOut, bind_ok] at h
    obtain ⟨_, s1, h1, i, s2, ⟨is, s2', h2, h2'⟩, o, s3, ⟨os, s3', h3, h3'⟩, h4⟩ := h
    simp at h4; obtain ⟨rfl, rfl⟩ := h4
    obtain ⟨hi, hA⟩ := inputBind (top_idx 0) (vty_ne_bus ty) (blockConnect_ok h1) h2 h2'
    obtain ⟨ho, hA⟩ := outputBind (top_idx 0) (vty_ne_bus ty) (in_again hi hA) h3 h3'
    exact out_again ho hA
  | memory ty =>
    simp only [Cls.connect, bindIn, bindOut, bind_ok] at h
    obtain ⟨_, s1, h1, i, s2, ⟨is, s2', h2, h2'⟩, o, s3, ⟨os, s3', h3, h3'⟩, _, s4, h5, h4⟩ := h
    simp at h4; obtain ⟨rfl, rfl⟩ := h4
    obtain ⟨hi, hA⟩ := inputBind (top_idx 0) (vty_ne_bus ty) (blockConnect_ok h1) h2 h2'
    obtain ⟨ho, hA⟩ := outputBind (top_idx 0) (vty_ne_bus ty) (in_again hi hA) h3 h3'
    exact adjust_after (Or.inl hi) (out_again ho hA) h5
  | so ty nIn =>
    simp only [Cls.connect, bindOut, bind_ok] at h
    obtain ⟨_, s1, h1, o, s3, ⟨os, s3', h3, h3'⟩, h4⟩ := h
    simp at h4; obtain ⟨rfl, rfl⟩ := h4
    obtain ⟨ho, hA⟩ := outputBind (top_idx 0) (vty_ne_bus ty) (blockConnect_ok h1) h3 h3'
    exact out_again ho hA
  | fold ty =>
    simp only [Cls.connect, bindOut, bind_ok] at h
    obtain ⟨_, s1, h1, o, s3, ⟨os, s3', h3, h3'⟩, _, s4, h5, _, s5, h6, h4⟩ := h
    simp at h4; obtain ⟨rfl, rfl⟩ := h4
    rw [debugVerify_ok] at h5 h6
    obtain ⟨ho, hA⟩ := outputBind (top_idx 0) (vty_ne_bus ty) (blockConnect_ok h1) h3 h3'
    rw [h6.2, h5.2]
    exact out_again ho hA
  | binary ty =>
    simp only [Cls.connect, bindOut, bind_ok] at h
    obtain ⟨_, s1, h1, o, s2, ⟨os, s2', h2, h2'⟩, a, s3, h3, i, s4, h4, a', s5, h5, i', s6, h6, h7⟩ := h
    simp at h7; obtain ⟨rfl, rfl⟩ := h7
    obtain ⟨ho, hA⟩ := outputBind (top_idx 0) (vty_ne_bus ty) (blockConnect_ok h1) h2 h2'
    obtain ⟨hi, hA⟩ := inputBind (top_idx 0) (vty_ne_bus ty) (out_again ho hA) h3 h4
    obtain ⟨hi', hA⟩ := inputBind (top_idx 1) (vty_ne_bus ty) (in_again hi hA) h5 h6
    exact in_again hi' hA
  | integrator ty =>
    simp only [Cls.connect, bind_ok] at h
    obtain ⟨_, s1, h1, os, s2, h2, o, s3, h3, i, s4, h4, _, s5, h5, _, s6, h6, _, s7, h7, h8⟩ := h
    simp at h8; obtain ⟨rfl, rfl⟩ := h8
    exact integ_after (blockConnect_ok h1) h2 h3 h4 h5 h6 h7
  | trigInt ty =>
    simp only [Cls.connect, bind_ok] at h
    obtain ⟨_, s1, h1, os, s2, h2, o, s3, h3, i, s4, h4, _, s5, h5, _, s6, h6, _, s7, h7, tr, s8, h8,
      tr', s9, h9, h10⟩ := h
    simp at h10; obtain ⟨rfl, rfl⟩ := h10
    have hA := integ_after (blockConnect_ok h1) h2 h3 h4 h5 h6 h7
    obtain ⟨ht, hA⟩ := inputBind (top_label _ (by decide +kernel)) (by simp) hA h8 h9
    exact hA
  | delay ty =>
    simp only [Cls.connect, bindOut, bind_ok] at h
    obtain ⟨_, s1, h1, o, s2, ⟨os, s2', h2, h2'⟩, x, s3, h3, x', s4, h4, d, s5, h5, d', s6, h6, i, s7,
      h7, i', s8, h8, h9⟩ := h
    simp at h9; obtain ⟨rfl, rfl⟩ := h9
    obtain ⟨ho, hA⟩ := outputBind (top_idx 0) (vty_ne_bus ty) (blockConnect_ok h1) h2 h2'
    obtain ⟨h, hA⟩ := inputBind (top_label _ (by decide +kernel)) (vty_ne_bus ty) (out_again ho hA) h3 h4
    obtain ⟨h, hA⟩ := inputBind (top_label _ (by decide +kernel)) (by simp) (in_again h hA) h5 h6
    obtain ⟨h, hA⟩ := inputBind (top_label _ (by decide +kernel)) (vty_ne_bus ty) (in_again h hA) h7 h8
    exact in_again h hA
  | plain nI nO =>
    simp only [Cls.connect, bind_ok] at h
    obtain ⟨_, s1, h1, h2⟩ := h
    simp at h2; obtain ⟨rfl, rfl⟩ := h2
    exact blockConnect_ok h1

/-- C14: for every leaf class, connecting twice or with wrong port numbers throws and changes
nothing. -/
theorem C14_class_throws (dbg : Bool) (c : Cls) (ibus obus : Entries) (st : CState)
    (h : st.c.connected = true ∨ (∃ n, (ports c).1 = some n ∧ ibus.length ≠ n) ∨
      (∃ n, (ports c).2 = some n ∧ obus.length ≠ n)) :
    ∃ e, c.connect dbg ibus obus st = .error (.exc e) st := by
  have key : ∃ e, blockConnect (ports c).1 (ports c).2 ibus obus st = .error (.exc e) st := by
    have t := C14_throws (ports c).1 (ports c).2 ibus obus st
    by_cases hc : st.c.connected = true
    · exact ⟨_, t.1 hc⟩
    · have hc' : st.c.connected = false := by simpa using hc
      by_cases hi : ∀ n, (ports c).1 = some n → ibus.length = n
      · rcases h with h | h | h
        · exact (hc h).elim
        · obtain ⟨n, h1, h2⟩ := h; exact (h2 (hi n h1)).elim
        · exact ⟨_, t.2.2 hc' hi h⟩
      · have hi' : ∃ n, (ports c).1 = some n ∧ ibus.length ≠ n := by simpa using hi
        exact ⟨_, t.2.1 hc' hi'⟩
  obtain ⟨e, he⟩ := key
  refine ⟨e, ?_⟩
  cases c <;> simp only [ports] at he <;> simp only [Cls.connect] <;> exact bind_of_error he

private theorem bit8 : ∀ i : Fin 32, i.val ≠ 3 → (8#32)[i.val] = false := by decide

/-- A link counts as required exactly if its bit of value 8 is set: after `connect` that are the value signals of the input
bus, and no others. -/
theorem C14_required_bit (f : Flags) : f.isRequired = f.getLsbD 3 := by
  have : ∀ b : Bool, (b = true ↔ f.getLsbD 3 = true) → b = f.getLsbD 3 := fun b h => Bool.eq_iff_iff.2 h
  apply this
  unfold Flags.isRequired Flags.required
  constructor
  · intro h
    apply Decidable.by_contra
    intro hc
    have : f &&& 8#32 = 0#32 := by
      ext i hi
      by_cases h3 : i = 3
      · subst h3
        simp only [BitVec.getElem_and, BitVec.getElem_zero]
        rw [BitVec.getLsbD_eq_getElem (by omega)] at hc
        simp [hc]
      · simp only [BitVec.getElem_and, BitVec.getElem_zero]
        rw [bit8 ⟨i, hi⟩ h3, Bool.and_false]
    rw [this] at h; simp at h
  · intro h
    simp only [bne_iff_ne, ne_eq]
    intro e
    have := congrArg (fun v : BitVec 32 => v.getLsbD 3) e
    simp only [BitVec.getLsbD_and, h] at this
    revert this; decide

theorem C14_required_inputs (ibus obus : Entries) (i : SigId) (h : i ∈ valueIds ibus ∨ i ∈ valueIds obus) :
    ∃ f, (i, f) ∈ linkList ibus obus (linkType ibus obus) ∧ (f.isRequired = true ↔ i ∈ valueIds ibus) := by
  refine ⟨_, ((C14_once ibus obus _).2 i _).2 ⟨h, rfl⟩, ?_⟩
  unfold linkType
  by_cases h1 : i ∈ valueIds ibus <;> by_cases h2 : i ∈ valueIds obus <;> simp [h1, h2] <;> decide

/-- A signal that is both input and output is linked once, as both; the nested bus is not linked. -/
example : (match blockConnect none none
    [(str "a", .val 0 .scalar), (str "b", .val 1 .int), (str "z", .bus 9 [(str "q", .val 5 .bool)]),
     (str "c", .val 0 .scalar)]
    [(str "o", .val 1 .int), (str "p", .val 2 .scalar)] ⟨{}, fun _ => none⟩ with
    | .ok _ st => st.c.links
    | .error _ _ => []) = [(0, 9#32), (1, 11#32), (2, 2#32)] := rfl

/-- An integrator: its input is not required, its output is. -/
example : (match (Cls.integrator .double).connect true [(str "x", .val 0 .scalar)] [(str "y", .val 1 .scalar)]
    ⟨{}, fun _ => none⟩ with | .ok _ st => st.c.links | .error _ _ => []) = [(0, 1#32), (1, 10#32)] := rfl

end Pooya.C14
