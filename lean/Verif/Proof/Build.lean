import Verif.Spec.Build
import Verif.Props.C10
import Verif.Props.C14

/-! Links made by `connect`. -/

namespace Pooya

set_option linter.unusedSectionVars false

variable {K : Type}

/-! ### Links -/

/-- `Leaf.Has` for a list of links. -/
def Linkage (ls : List (SigId × Flags)) (s : SigId) (t : Flags) : Prop := ∃ f, (s, f) ∈ ls ∧ f &&& t = t

theorem or_keeps {f t u : Flags} (h : f &&& t = t) : (f ||| u) &&& t = t := by
  ext i hi
  have := congrArg (fun v : BitVec 32 => v[i]) h
  simp only [BitVec.getElem_and, BitVec.getElem_or] at this ⊢
  cases ht : t[i]
  · simp
  · rw [ht] at this; simp only [Bool.and_true] at this; simp [this]

theorem or_self_and (f u : Flags) : (f ||| u) &&& u = u := by
  ext i hi
  simp only [BitVec.getElem_and, BitVec.getElem_or]
  cases u[i] <;> simp

theorem updLink_fst {s : SigId} {g : Flags → Flags} {ls ls' : List (SigId × Flags)} (h : updLink s g ls = some ls') :
    ls'.map Prod.fst = ls.map Prod.fst := by
  induction ls generalizing ls' with
  | nil => cases h
  | cons p ls ih =>
    obtain ⟨k, f⟩ := p
    unfold updLink at h
    by_cases e : k = s
    · rw [if_pos e] at h; cases h; rfl
    · rw [if_neg e] at h
      cases hu : updLink s g ls with
      | none => rw [hu] at h; cases h
      | some r => rw [hu] at h; cases h; simp [ih hu]

theorem updLink_none {s : SigId} {g : Flags → Flags} {ls : List (SigId × Flags)} (h : updLink s g ls = none) : s ∉ ls.map Prod.fst := by
  induction ls with
  | nil => simp
  | cons p ls ih =>
    obtain ⟨k, f⟩ := p
    unfold updLink at h
    by_cases e : k = s
    · rw [if_pos e] at h; cases h
    · rw [if_neg e] at h
      cases hu : updLink s g ls with
      | none => exact fun hc => (List.mem_cons.1 hc).elim (fun e' => e e'.symm) (ih hu)
      | some r => rw [hu] at h; cases h

theorem updLink_or {s : SigId} {u : Flags} {ls ls' : List (SigId × Flags)} (h : updLink s (fun g => g ||| u) ls = some ls') :
    Linkage ls' s u ∧ ∀ s' t, Linkage ls s' t → Linkage ls' s' t := by
  induction ls generalizing ls' with
  | nil => cases h
  | cons p ls ih =>
    obtain ⟨k, f⟩ := p
    unfold updLink at h
    by_cases e : k = s
    · rw [if_pos e] at h; cases h
      refine ⟨⟨f ||| u, by simp [e], or_self_and f u⟩, ?_⟩
      rintro s' t ⟨f', hf, hb⟩
      rcases List.mem_cons.1 hf with e' | hf
      · cases e'; exact ⟨f ||| u, by simp, or_keeps hb⟩
      · exact ⟨f', by simp [hf], hb⟩
    · rw [if_neg e] at h
      cases hu : updLink s (fun g => g ||| u) ls with
      | none => rw [hu] at h; cases h
      | some r =>
        rw [hu] at h; cases h
        obtain ⟨⟨f1, h1, h2⟩, h3⟩ := ih hu
        refine ⟨⟨f1, by simp [h1], h2⟩, ?_⟩
        rintro s' t ⟨f', hf, hb⟩
        rcases List.mem_cons.1 hf with e' | hf
        · cases e'; exact ⟨f, by simp, hb⟩
        · obtain ⟨f2, h4, h5⟩ := h3 s' t ⟨f', hf, hb⟩
          exact ⟨f2, by simp [h4], h5⟩

/-- `link_signal` for a value signal. -/
theorem linkSignal_facts (ls : List (SigId × Flags)) (i : SigId) (ty : Ty) (u : Flags) (hn : (ls.map Prod.fst).Nodup) :
    ((linkSignal ls (.val i ty) u).map Prod.fst).Nodup ∧ Linkage (linkSignal ls (.val i ty) u) i u ∧
      ∀ s t, Linkage ls s t → Linkage (linkSignal ls (.val i ty) u) s t := by
  unfold linkSignal
  simp only
  cases hu : updLink i (fun g => g ||| u) ls with
  | none =>
    have := updLink_none hu
    refine ⟨?_, ⟨u, by simp, BitVec.and_self⟩, ?_⟩
    · rw [List.map_append, List.nodup_append]
      refine ⟨hn, by simp, ?_⟩
      intro a ha b hb e
      simp only [List.map_cons, List.map_nil, List.mem_singleton] at hb
      exact this (by rw [← hb, ← e]; exact ha)
    · rintro s t ⟨f, hf, hb⟩
      exact ⟨f, by simp [hf], hb⟩
  | some r => exact ⟨by rw [updLink_fst hu]; exact hn, (updLink_or hu).1, (updLink_or hu).2⟩

/-! ### The base classes -/

theorem and_in (b : Bool) : ((Flags.input ||| Flags.required) ||| (if b = true then Flags.output else 0#32)) &&& (Flags.input ||| Flags.required) =
    Flags.input ||| Flags.required := by cases b <;> decide

theorem linkType_has_in {ibus obus : Entries} {i : SigId} (h : i ∈ C14.valueIds ibus) :
    C14.linkType ibus obus i &&& (Flags.input ||| Flags.required) = Flags.input ||| Flags.required := by
  unfold C14.linkType
  rw [if_pos h]
  split <;> decide

theorem linkType_has_out {ibus obus : Entries} {i : SigId} (h : i ∈ C14.valueIds obus) :
    C14.linkType ibus obus i &&& Flags.output = Flags.output := by
  unfold C14.linkType
  rw [if_pos h]
  split <;> decide

theorem and_input {f : Flags} (h : f &&& (Flags.input ||| Flags.required) = Flags.input ||| Flags.required) : f &&& Flags.input = Flags.input := by
  have : (f &&& (Flags.input ||| Flags.required)) &&& Flags.input = Flags.input := by rw [h]; decide
  rw [BitVec.and_assoc] at this
  exact this

theorem and_required {f : Flags} (h : f &&& (Flags.input ||| Flags.required) = Flags.input ||| Flags.required) : f.isRequired = true := by
  have : (f &&& (Flags.input ||| Flags.required)) &&& Flags.required = Flags.required := by rw [h]; decide
  rw [BitVec.and_assoc] at this
  have e : f &&& Flags.required = Flags.required := this
  unfold Flags.isRequired
  rw [e]; decide

/-- The types `clsType` gives to links: outputs are outputs, inputs are inputs. -/
theorem clsType_out (c : Cls) {ibus obus : Entries} (b : Bound) {i : SigId} (h : i ∈ C14.valueIds obus) :
    C14.clsType c ibus obus b i &&& Flags.output = Flags.output := by
  have h0 := linkType_has_out (ibus := ibus) h
  have hn : ∀ f : Flags, f &&& Flags.output = Flags.output → (f &&& ~~~Flags.required) &&& Flags.output = Flags.output := fun f hf => by
    rw [BitVec.and_assoc]
    have : ~~~Flags.required &&& Flags.output = Flags.output := by decide
    rw [this]; exact hf
  unfold C14.clsType
  split
  · split
    · exact hn _ h0
    · exact h0
  · simp only
    have h1 : ∀ x, (if i = x then C14.linkType ibus obus i &&& ~~~Flags.required else C14.linkType ibus obus i) &&& Flags.output = Flags.output :=
      fun x => by split; exacts [hn _ h0, h0]
    split
    · exact or_keeps (h1 _)
    · exact h1 _
  · simp only
    have h1 : ∀ x, (if i = x then C14.linkType ibus obus i &&& ~~~Flags.required else C14.linkType ibus obus i) &&& Flags.output = Flags.output :=
      fun x => by split; exacts [hn _ h0, h0]
    have h2 : ∀ x o, (if i = o then (if i = x then C14.linkType ibus obus i &&& ~~~Flags.required else C14.linkType ibus obus i) ||| Flags.required
        else (if i = x then C14.linkType ibus obus i &&& ~~~Flags.required else C14.linkType ibus obus i)) &&& Flags.output = Flags.output :=
      fun x o => by split; exacts [or_keeps (h1 _), h1 _]
    split
    · exact or_keeps (h2 _ _)
    · exact h2 _ _
  · exact h0

theorem clsType_in (c : Cls) {ibus obus : Entries} (b : Bound) {i : SigId} (h : i ∈ C14.valueIds ibus) :
    C14.clsType c ibus obus b i &&& Flags.input = Flags.input := by
  have h0 := and_input (linkType_has_in (obus := obus) h)
  have hn : ∀ f : Flags, f &&& Flags.input = Flags.input → (f &&& ~~~Flags.required) &&& Flags.input = Flags.input := fun f hf => by
    rw [BitVec.and_assoc]
    have : ~~~Flags.required &&& Flags.input = Flags.input := by decide
    rw [this]; exact hf
  have h1 : ∀ x, (if i = x then C14.linkType ibus obus i &&& ~~~Flags.required else C14.linkType ibus obus i) &&& Flags.input = Flags.input :=
    fun x => by split; exacts [hn _ h0, h0]
  have h2 : ∀ x o, (if i = o then (if i = x then C14.linkType ibus obus i &&& ~~~Flags.required else C14.linkType ibus obus i) ||| Flags.required
      else (if i = x then C14.linkType ibus obus i &&& ~~~Flags.required else C14.linkType ibus obus i)) &&& Flags.input = Flags.input :=
    fun x o => by split; exacts [or_keeps (h1 _), h1 _]
  unfold C14.clsType
  split
  · exact h1 _
  · exact h2 _ _
  · simp only
    split
    · exact or_keeps (h2 _ _)
    · exact h2 _ _
  · exact h0

/-- The inputs a connected block waits for. -/
def Cls.waits : Cls → Bound → List SigId
  | .memory _, _ => []
  | .integrator _, _ => []
  | .trigInt _, ⟨[_, tr], _⟩ => [tr]
  | .trigInt _, _ => []
  | _, b => b.ins

theorem clsType_waits (c : Cls) {ibus obus : Entries} {b : Bound} {i : SigId} (h : i ∈ C14.valueIds ibus) (hw : i ∈ c.waits b) :
    C14.clsType c ibus obus b i &&& (Flags.input ||| Flags.required) = Flags.input ||| Flags.required := by
  have h0 := linkType_has_in (obus := obus) h
  obtain ⟨ins, o⟩ := b
  cases c with
  | memory ty => cases hw
  | integrator ty => cases hw
  | trigInt ty =>
    match ins, hw with
    | [x, tr], hw =>
      cases o with
      | none => exact h0
      | some o =>
        have e : i = tr := by simpa [Cls.waits] using hw
        simp only [C14.clsType, e, if_true]
        exact or_self_and _ _
  | _ => exact h0

theorem linkList_has {ibus obus : Entries} {f : SigId → Flags} {i : SigId} {t : Flags} (hi : i ∈ C14.valueIds ibus ∨ i ∈ C14.valueIds obus)
    (hf : f i &&& t = t) : Linkage (C14.linkList ibus obus f) i t :=
  ⟨f i, ((C14.C14_once ibus obus f).2 i (f i)).2 ⟨hi, rfl⟩, hf⟩

theorem usable_val {es : Entries} {ty : HandleTy} (hty : ty ≠ .bus) {i : SigId} (h : C10.Usable es ty i) : i ∈ C14.valueIds es := by
  obtain ⟨⟨k, s⟩, hp, e, ht⟩ := h
  cases ht with
  | bus => exact (hty rfl).elim
  | _ => cases e; exact C14.mem_valueIds hp

theorem pointwise_vals {es : Entries} {tys : List HandleTy} {is : List SigId} (h : C10.Pointwise (C10.Usable es) tys is) (ht : .bus ∉ tys) :
    ∀ i ∈ is, i ∈ C14.valueIds es := by
  induction tys generalizing is with
  | nil => cases is with
    | nil => intro i hi; cases hi
    | cons => exact h.elim
  | cons t tys ih =>
    cases is with
    | nil => exact h.elim
    | cons i is =>
      intro j hj
      rcases List.mem_cons.1 hj with e | hj
      · rw [e]; exact usable_val (fun e' => ht (by simp [e'])) h.1
      · exact ih h.2 (fun hc => ht (by simp [hc])) j hj

theorem bus_not_in (n : Nat) (c : Cls) : HandleTy.bus ∉ C10.inTypes n c := by
  have h : ∀ ty : VTy, HandleTy.bus ≠ ty.handle := fun ty => by cases ty <;> simp [VTy.handle]
  cases c <;> simp [C10.inTypes, h, List.mem_replicate]

/-- `connect` of a class on a new block. -/
structure Cls.Made (c : Cls) (ibus obus : Entries) (b : Bound) (ls : List (SigId × Flags)) : Prop where
  waits : ∀ s ∈ c.waits b, Linkage ls s (Flags.input ||| Flags.required)
  ins : ∀ s ∈ b.ins, Linkage ls s Flags.input
  out : ∀ o, b.out = some o → Linkage ls o Flags.output
  once : (ls.map Prod.fst).Nodup
  inVals : ∀ i ∈ C14.valueIds ibus, Linkage ls i Flags.input
  outVals : ∀ i ∈ C14.valueIds obus, Linkage ls i Flags.output
  all : (∃ ty n, c = .so ty n) ∨ (∃ n n', c = .plain n n') → ∀ i ∈ C14.valueIds ibus, Linkage ls i (Flags.input ||| Flags.required)

theorem waits_ins (c : Cls) (b : Bound) : ∀ s ∈ c.waits b, s ∈ b.ins := by
  intro s hs
  obtain ⟨ins, o⟩ := b
  cases c with
  | memory ty => cases hs
  | integrator ty => cases hs
  | trigInt ty =>
    match ins, hs with
    | [x, tr], hs =>
      have : s = tr := by simpa [Cls.waits] using hs
      simp [this]
  | _ => exact hs

/-- The types of the handles, also in release builds if the inputs of `Add` and `Multiply` have the right types. -/
theorem cls_types {dbg : Bool} {c : Cls} {ibus obus : Entries} (hc : dbg = true ∨ ∀ ty, c = .fold ty → ∀ q ∈ ibus, ∃ i n, q.2 = .val i (ty.toTy n))
    {st st' : CState} {b : Bound} (h : c.connect dbg ibus obus st = .ok b st') :
    C10.Pointwise (C10.Usable ibus) (C10.inTypes ibus.length c) b.ins ∧
    match C10.outType c, b.out with
    | none, none => True
    | some ty, some o => C10.Usable obus ty o
    | _, _ => False := by
  rcases hc with hc | hc
  · exact C10.C10_partial dbg c (.inl hc) ibus obus _ _ _ h
  · by_cases hf : ∃ ty, c = .fold ty
    · obtain ⟨ty, rfl⟩ := hf
      simp only [Cls.connect, bind_ok] at h
      obtain ⟨_, s1, h1, o, s2, h2, _, s3, h3, _, s4, h5, h4⟩ := h
      simp at h4; obtain ⟨rfl, rfl⟩ := h4
      obtain ⟨a1, a2⟩ := C10.blockConnect_ok h1
      obtain ⟨b1, b2, b3⟩ := C10.bindOut_ok h2
      rw [a2] at b1
      refine ⟨C10.pointwise_all (fun _ hp => hp) ?_, b1⟩
      rw [List.all_eq_true]
      intro q hq
      obtain ⟨i, n, e⟩ := hc ty rfl q hq
      rw [e]
      cases ty <;> rfl
    · exact C10.C10_partial dbg c (.inr fun ty e => hf ⟨ty, e⟩) ibus obus _ _ _ h

theorem cls_made {dbg : Bool} {c : Cls} {ibus obus : Entries} (hc : dbg = true ∨ ∀ ty, c = .fold ty → ∀ q ∈ ibus, ∃ i n, q.2 = .val i (ty.toTy n)) {d : Derivs} {b : Bound} {st : CState}
    (h : c.connect dbg ibus obus ⟨{}, d⟩ = .ok b st) : c.Made ibus obus b st.c.links := by
  have hl := C14.C14_class_links dbg c ibus obus d b st h
  obtain ⟨h1, h2⟩ := cls_types hc h
  have hi := pointwise_vals h1 (bus_not_in _ _)
  have hv : ∀ ty : VTy, ty.handle ≠ .bus := fun ty => by cases ty <;> simp [VTy.handle]
  have ho : ∀ o, b.out = some o → o ∈ C14.valueIds obus := by
    intro o e
    rw [e] at h2
    cases c <;> simp only [C10.outType] at h2 <;> first | exact usable_val (hv _) h2 | exact h2.elim
  rw [hl]
  constructor
  · intro s hs
    have := hi s (waits_ins c b s hs)
    exact linkList_has (.inl this) (clsType_waits c this hs)
  · exact fun s hs => linkList_has (.inl (hi s hs)) (clsType_in c b (hi s hs))
  · exact fun o e => linkList_has (.inr (ho o e)) (clsType_out c b (ho o e))
  · exact (C14.C14_once ibus obus _).1
  · exact fun s hs => linkList_has (.inl hs) (clsType_in c b hs)
  · exact fun s hs => linkList_has (.inr hs) (clsType_out c b hs)
  · rintro (⟨ty, n, rfl⟩ | ⟨n, n', rfl⟩) <;> exact fun s hs => linkList_has (.inl hs) (linkType_has_in hs)

/-! ### Derivative links -/

theorem blockConnect_d {nI nO : Option Nat} {ibus obus : Entries} {st st' : CState} (h : blockConnect nI nO ibus obus st = .ok () st') : st'.d = st.d := by
  simp only [blockConnect] at h
  split at h
  · cases h
  · split at h
    · cases h
    · split at h
      · cases h
      · cases h; rfl

theorem inputAt_d {k : Key} {st st' : CState} {s : Signal} (h : inputAt k st = .ok s st') : st'.d = st.d := by
  simp only [inputAt, bind_ok, get_apply] at h
  obtain ⟨_, _, h1, s1, _, h2, _, _, h3, h4⟩ := h
  simp at h1; obtain ⟨rfl, rfl⟩ := h1
  rw [liftE_eq_ok] at h2; obtain ⟨h2, rfl⟩ := h2
  simp at h3 h4; obtain ⟨rfl, rfl⟩ := h4; subst h3
  rfl

theorem outputAt_d {k : Key} {st st' : CState} {s : Signal} (h : outputAt k st = .ok s st') : st'.d = st.d := by
  simp only [outputAt, bind_ok, get_apply] at h
  obtain ⟨_, _, h1, s1, _, h2, _, _, h3, h4⟩ := h
  simp at h1; obtain ⟨rfl, rfl⟩ := h1
  rw [liftE_eq_ok] at h2; obtain ⟨h2, rfl⟩ := h2
  simp at h3 h4; obtain ⟨rfl, rfl⟩ := h4; subst h3
  rfl

theorem bindHandle_d {ty : HandleTy} {s : Signal} {st st' : CState} {i : SigId} (h : bindHandle ty s st = .ok i st') : st'.d = st.d := by
  rw [(C10.bindHandle_ok h).2.2]

theorem adjustLink_d {s : SigId} {f : Flags → Flags} {st st' : CState} (h : adjustLink s f st = .ok () st') : st'.d = st.d := by
  simp [adjustLink] at h; subst h; rfl

theorem bindIn_d {ty : VTy} {st st' : CState} {i : SigId} (h : bindIn ty st = .ok i st') : st'.d = st.d := by
  simp only [bindIn, bind_ok] at h
  obtain ⟨s, s1, h1, h2⟩ := h
  rw [bindHandle_d h2, inputAt_d h1]

theorem bindOut_d {ty : VTy} {st st' : CState} {i : SigId} (h : bindOut ty st = .ok i st') : st'.d = st.d := by
  simp only [bindOut, bind_ok] at h
  obtain ⟨s, s1, h1, h2⟩ := h
  rw [bindHandle_d h2, outputAt_d h1]

/-- The derivative link made for an integrator. -/
structure Joined (ibus obus : Entries) (d d' : Derivs) (x o : SigId) : Prop where
  link : d' = upd d o (some x)
  types : ∃ t k k', (k, Signal.val o t) ∈ obus ∧ (k', Signal.val x t) ∈ ibus ∧ t.Float

theorem integ_joined {ty : VTy} {st s1 s2 s3 s4 : CState} {os i : Signal} {o : SigId}
    (h1 : outputAt (.idx 0) st = .ok os s1) (h2 : bindHandle ty.handle os s1 = .ok o s2)
    (h3 : inputAt (.idx 0) s2 = .ok i s3) (h4 : connDeriv o (tyOf os) i s3 = .ok () s4) :
    Joined st.c.ibus st.c.obus st.d s4.d i.id o := by
  obtain ⟨a1, a2, a3⟩ := C10.outputAt_ok h1
  obtain ⟨b1, b2, b3⟩ := C10.bindHandle_ok h2
  obtain ⟨c1, c2, c3⟩ := C10.inputAt_ok h3
  have hd := (C10.connDeriv_ok h4).1
  obtain ⟨e1, e2, _⟩ := C10.C10_deriv (tyOf os) (s3.d o) i
  have e4 : s4.d = upd st.d o (some i.id) := by
    have hs : s3.d = st.d := by rw [inputAt_d h3, bindHandle_d h2, outputAt_d h1]
    simp only [connDeriv] at h4
    rw [hd] at h4
    cases h4
    rw [← hs, ← e2 hd]
  refine ⟨e4, ?_⟩
  obtain ⟨⟨k, p⟩, hp, ep⟩ := C10.key_at_mem (by trivial) a1
  obtain ⟨⟨k', q⟩, hq, eq⟩ := C10.key_at_mem (by trivial) c1
  subst ep eq b2
  rw [b3, a2] at hq
  rcases e1.1 hd with ⟨t1, j, rfl⟩ | ⟨n, j, t1, rfl⟩
  · refine ⟨.scalar, k, k', ?_, hq, trivial⟩
    cases ty <;> cases b1 <;> simp [tyOf] at t1
    exact hp
  · refine ⟨.array n, k, k', ?_, hq, trivial⟩
    cases ty <;> cases b1 <;> simp [tyOf] at t1
    subst t1
    exact hp

/-- The derivative links after `connect` of a class. -/
def Cls.Derived (ibus obus : Entries) (b : Bound) (d d' : Derivs) : Cls → Prop
  | .integrator _ => ∃ x o, b = ⟨[x], some o⟩ ∧ Joined ibus obus d d' x o
  | .trigInt _ => ∃ x tr o, b = ⟨[x, tr], some o⟩ ∧ Joined ibus obus d d' x o
  | _ => d' = d

theorem cls_derivs {dbg : Bool} {c : Cls} {ibus obus : Entries} {st st' : CState} {b : Bound} (h : c.connect dbg ibus obus st = .ok b st') :
    c.Derived ibus obus b st.d st'.d := by
  cases c with
  | sio ty =>
    simp only [Cls.connect, bind_ok] at h
    obtain ⟨_, s1, h1, i, s2, h2, o, s3, h3, h4⟩ := h
    simp at h4; obtain ⟨rfl, rfl⟩ := h4
    show s3.d = st.d
    rw [bindOut_d h3, bindIn_d h2, blockConnect_d h1]
  | memory ty =>
    simp only [Cls.connect, bind_ok] at h
    obtain ⟨_, s1, h1, i, s2, h2, o, s3, h3, _, s4, h5, h4⟩ := h
    simp at h4; obtain ⟨rfl, rfl⟩ := h4
    show s4.d = st.d
    rw [adjustLink_d h5, bindOut_d h3, bindIn_d h2, blockConnect_d h1]
  | so ty nIn =>
    simp only [Cls.connect, bind_ok] at h
    obtain ⟨_, s1, h1, o, s2, h2, h4⟩ := h
    simp at h4; obtain ⟨rfl, rfl⟩ := h4
    show s2.d = st.d
    rw [bindOut_d h2, blockConnect_d h1]
  | fold ty =>
    simp only [Cls.connect, bind_ok] at h
    obtain ⟨_, s1, h1, o, s2, h2, _, s3, h3, _, s4, h5, h4⟩ := h
    simp at h4; obtain ⟨rfl, rfl⟩ := h4
    rw [debugVerify_ok] at h3 h5
    show s4.d = st.d
    rw [h5.2, h3.2, bindOut_d h2, blockConnect_d h1]
  | binary ty =>
    simp only [Cls.connect, bind_ok] at h
    obtain ⟨_, s1, h1, o, s2, h2, a, s3, h3, i, s4, h4, a', s5, h5, i', s6, h6, h7⟩ := h
    simp at h7; obtain ⟨rfl, rfl⟩ := h7
    show s6.d = st.d
    rw [bindHandle_d h6, inputAt_d h5, bindHandle_d h4, inputAt_d h3, bindOut_d h2, blockConnect_d h1]
  | integrator ty =>
    simp only [Cls.connect, bind_ok] at h
    obtain ⟨_, s1, h1, os, s2, h2, o, s3, h3, i, s4, h4, _, s5, h5, _, s6, h6, _, s7, h7, h8⟩ := h
    simp at h8; obtain ⟨rfl, rfl⟩ := h8
    refine ⟨_, _, rfl, ?_⟩
    have := integ_joined h2 h3 h4 h5
    obtain ⟨a1, a2⟩ := C10.blockConnect_ok h1
    rw [a1, a2, blockConnect_d h1] at this
    rw [adjustLink_d h7, adjustLink_d h6]
    exact this
  | trigInt ty =>
    simp only [Cls.connect, bind_ok] at h
    obtain ⟨_, s1, h1, os, s2, h2, o, s3, h3, i, s4, h4, _, s5, h5, _, s6, h6, _, s7, h7, tr, s8, h8, tr', s9, h9, h10⟩ := h
    simp at h10; obtain ⟨rfl, rfl⟩ := h10
    refine ⟨_, _, _, rfl, ?_⟩
    have := integ_joined h2 h3 h4 h5
    obtain ⟨a1, a2⟩ := C10.blockConnect_ok h1
    rw [a1, a2, blockConnect_d h1] at this
    rw [bindHandle_d h9, inputAt_d h8, adjustLink_d h7, adjustLink_d h6]
    exact this
  | delay ty =>
    simp only [Cls.connect, bind_ok] at h
    obtain ⟨_, s1, h1, o, s2, h2, x, s3, h3, x', s4, h4, d, s5, h5, d', s6, h6, i, s7, h7, i', s8, h8, h9⟩ := h
    simp at h9; obtain ⟨rfl, rfl⟩ := h9
    show s8.d = st.d
    rw [bindHandle_d h8, inputAt_d h7, bindHandle_d h6, inputAt_d h5, bindHandle_d h4, inputAt_d h3, bindOut_d h2, blockConnect_d h1]
  | plain nI nO =>
    simp only [Cls.connect, bind_ok] at h
    obtain ⟨_, s1, h1, h2⟩ := h
    simp at h2; obtain ⟨rfl, rfl⟩ := h2
    show s1.d = st.d
    rw [blockConnect_d h1]

end Pooya
