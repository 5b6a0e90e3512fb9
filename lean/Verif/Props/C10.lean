import Verif.Model.Connect
import Verif.Proof.Monad

/-! # C10 — typed access rejects wrong signals -/

namespace Pooya.C10

/-- Specification: the dynamic type of a signal is the one a handle of the given type stands for. -/
inductive HasType : HandleTy → Signal → Prop where
  | scalar (i) : HasType .scalar (.val i .scalar)
  | int (i) : HasType .int (.val i .int)
  | bool (i) : HasType .bool (.val i .bool)
  | array (i n) : HasType .array (.val i (.array n))
  | bus (i es) : HasType .bus (.bus i es)

theorem accepts_iff (ty : HandleTy) (s : Signal) : ty.accepts s = true ↔ HasType ty s := by
  constructor
  · intro h
    cases ty <;> rcases s with ⟨i, _ | _ | _ | n⟩ | ⟨i, es⟩ <;> simp [HandleTy.accepts] at h <;>
      constructor
  · intro h; cases h <;> rfl

/-- C10: making a typed handle of a signal succeeds exactly for signals of that type, the handle then
refers to that signal; otherwise an exception is thrown. -/
theorem C10_wrap (ty : HandleTy) (s : Signal) :
    (HasType ty s → mkHandle ty s = .ok ⟨ty, s⟩) ∧
    (¬ HasType ty s → mkHandle ty s = .error (.exc .invalidType)) := by
  rw [← accepts_iff]
  constructor <;> intro h <;> simp [mkHandle, h]

/-- C10: re-targeting a handle; a handle whose re-targeting failed refers to no signal any more. -/
theorem C10_reset (h : Handle) (s : Signal) :
    (HasType h.ty s → resetHandle h s = (.ok (), some ⟨h.ty, s⟩)) ∧
    (¬ HasType h.ty s → resetHandle h s = (.error (.exc .invalidType), none)) := by
  rw [← accepts_iff]
  constructor <;> intro h <;> simp [resetHandle, h]

/-- C10: hence after any sequence of successful re-targetings a handle refers to a signal of its
type. -/
theorem C10_handle_typed (ty : HandleTy) (s : Signal) (ss : List Signal) (h : Handle)
    (hh : (ss.foldlM (fun (h : Handle) s =>
        match resetHandle h s with
        | (.ok _, some h') => some h'
        | _ => none) ⟨ty, s⟩) = some h) (hs : HasType ty s) :
    h.ty = ty ∧ HasType ty h.target ∧ h.target ∈ s :: ss := by
  induction ss generalizing s with
  | nil => simp at hh; subst hh; simp [hs]
  | cons a ss ih =>
    simp only [List.foldlM_cons] at hh
    by_cases ha : HasType ty a
    · rw [(C10_reset ⟨ty, s⟩ a).1 ha] at hh
      have := ih a hh ha
      refine ⟨this.1, this.2.1, ?_⟩
      have := this.2.2
      simp at this ⊢
      exact Or.inr this
    · have h2 := (C10_reset ⟨ty, s⟩ a).2 ha
      have : (match resetHandle ⟨ty, s⟩ a with
        | (.ok _, some h') => some h'
        | _ => none) = none := by
        split
        · rename_i h3; rw [h3] at h2; cases h2
        · rfl
      rw [this] at hh
      cases hh

/-- C10: a derivative link is accepted exactly if both signals are scalars or both are arrays of the
same size; it then refers to that signal. -/
theorem C10_deriv (sty : Ty) (old : Option SigId) (d : Signal) :
    ((setDeriv sty old d).1 = .ok () ↔
      (sty = .scalar ∧ ∃ i, d = .val i .scalar) ∨ ∃ n i, sty = .array n ∧ d = .val i (.array n)) ∧
    ((setDeriv sty old d).1 = .ok () → (setDeriv sty old d).2 = some d.id) ∧
    ((setDeriv sty old d).1 ≠ .ok () → ∃ e, (setDeriv sty old d).1 = .error (.exc e)) := by
  rcases sty with _ | _ | _ | n <;> rcases d with ⟨i, _ | _ | _ | m⟩ | ⟨i, es⟩ <;>
    simp [setDeriv, Signal.id]
  by_cases h : n = m <;> simp [h]
  exact fun h' => h h'.symm

/-- The types a class' handles need, in the order of `Bound.ins`; `n` is the number of inputs. -/
def inTypes (n : Nat) : Cls → List HandleTy
  | .sio ty | .memory ty | .integrator ty => [ty.handle]
  | .so _ _ | .plain _ _ => []
  | .fold ty => List.replicate n ty.handle
  | .binary ty => [ty.handle, ty.handle]
  | .trigInt ty => [ty.handle, .bool]
  | .delay ty => [ty.handle, .scalar, ty.handle]

/-- The type of the output handle. -/
def outType : Cls → Option HandleTy
  | .sio ty | .memory ty | .integrator ty | .so ty _ | .fold ty | .binary ty | .trigInt ty | .delay ty =>
      some ty.handle
  | .plain _ _ => none

/-- A handle of type `ty` bound to `i` may be used: `i` is on the bus and has that type. -/
def Usable (es : Entries) (ty : HandleTy) (i : SigId) : Prop :=
  ∃ p ∈ es, p.2.id = i ∧ HasType ty p.2

/-- Pointwise on lists of equal length. -/
def Pointwise {α β : Type} (R : α → β → Prop) : List α → List β → Prop
  | [], [] => True
  | a :: as, b :: bs => R a b ∧ Pointwise R as bs
  | _, _ => False

/-- The full claim: whatever `connect` accepts is used at the right types. -/
def C10_full (dbg : Bool) (c : Cls) : Prop :=
  ∀ (ibus obus : Entries) (st st' : CState) (b : Bound),
    c.connect dbg ibus obus st = .ok b st' →
    Pointwise (Usable ibus) (inTypes ibus.length c) b.ins ∧
    match outType c, b.out with
    | none, none => True
    | some ty, some o => Usable obus ty o
    | _, _ => False

theorem findLabel_mem {es : Entries} {l : Str} {s : Signal} (h : findLabel es l = some s) :
    ∃ p ∈ es, p.2 = s := by
  induction es with
  | nil => simp [findLabel] at h
  | cons p es ih =>
    obtain ⟨k, s'⟩ := p
    simp only [findLabel] at h
    split at h
    · simp at h; exact ⟨(k, s'), by simp, h⟩
    · obtain ⟨p, hp, e⟩ := ih h
      exact ⟨p, by simp [hp], e⟩

/-- Keys that look up an entry of the bus itself. -/
def Key.flat : Key → Prop
  | .idx _ => True
  | .label l => (splitDot l).2 = none

theorem key_at_mem {k : Key} (hk : Key.flat k) {es : Entries} {s : Signal} (h : k.at es = .ok s) :
    ∃ p ∈ es, p.2 = s := by
  cases k with
  | idx i =>
    simp only [Key.at, busAtIdx] at h
    split at h
    · cases h
    · rename_i a b hs
      simp at h; subst h
      exact ⟨_, List.mem_of_getElem? hs, rfl⟩
  | label l =>
    simp only [Key.flat] at hk
    simp only [Key.at] at h
    unfold busAt at h
    split at h
    · split at h
      · cases h
      · rename_i s' hf; simp at h; subst h; exact findLabel_mem hf
    · rename_i l' r hs; rw [hs] at hk; cases hk

theorem inputAt_ok {k : Key} {st st' : CState} {s : Signal} (h : inputAt k st = .ok s st') :
    k.at st.c.ibus = .ok s ∧ st'.c.ibus = st.c.ibus ∧ st'.c.obus = st.c.obus := by
  simp only [inputAt, bind_ok, get_apply] at h
  obtain ⟨_, _, h1, s1, _, h2, _, _, h3, h4⟩ := h
  simp at h1; obtain ⟨rfl, rfl⟩ := h1
  rw [liftE_eq_ok] at h2; obtain ⟨h2, rfl⟩ := h2
  simp at h3 h4; obtain ⟨rfl, rfl⟩ := h4; subst h3
  exact ⟨h2, rfl, rfl⟩

theorem outputAt_ok {k : Key} {st st' : CState} {s : Signal} (h : outputAt k st = .ok s st') :
    k.at st.c.obus = .ok s ∧ st'.c.ibus = st.c.ibus ∧ st'.c.obus = st.c.obus := by
  simp only [outputAt, bind_ok, get_apply] at h
  obtain ⟨_, _, h1, s1, _, h2, _, _, h3, h4⟩ := h
  simp at h1; obtain ⟨rfl, rfl⟩ := h1
  rw [liftE_eq_ok] at h2; obtain ⟨h2, rfl⟩ := h2
  simp at h3 h4; obtain ⟨rfl, rfl⟩ := h4; subst h3
  exact ⟨h2, rfl, rfl⟩

theorem bindHandle_ok {ty : HandleTy} {s : Signal} {st st' : CState} {i : SigId}
    (h : bindHandle ty s st = .ok i st') : HasType ty s ∧ i = s.id ∧ st' = st := by
  simp only [bindHandle] at h
  split at h
  · rename_i ha; simp at h; exact ⟨(accepts_iff _ _).1 ha, h.1.symm, h.2.symm⟩
  · simp at h

theorem blockConnect_ok {nI nO : Option Nat} {ibus obus : Entries} {st st' : CState}
    (h : blockConnect nI nO ibus obus st = .ok () st') : st'.c.ibus = ibus ∧ st'.c.obus = obus := by
  simp only [blockConnect] at h
  split at h
  · simp at h
  · split at h
    · simp at h
    · split at h
      · simp at h
      · simp at h; subst h; exact ⟨rfl, rfl⟩

theorem bindIn_ok {ty : VTy} {st st' : CState} {i : SigId} (h : bindIn ty st = .ok i st') :
    Usable st.c.ibus ty.handle i ∧ st'.c.ibus = st.c.ibus ∧ st'.c.obus = st.c.obus := by
  simp only [bindIn, bind_ok] at h
  obtain ⟨s, s1, h1, h2⟩ := h
  obtain ⟨a, b, c⟩ := inputAt_ok h1
  obtain ⟨d, e, f⟩ := bindHandle_ok h2
  obtain ⟨p, hp, e2⟩ := key_at_mem (by trivial) a
  subst f e e2
  exact ⟨⟨p, hp, rfl, d⟩, b, c⟩

theorem bindOut_ok {ty : VTy} {st st' : CState} {i : SigId} (h : bindOut ty st = .ok i st') :
    Usable st.c.obus ty.handle i ∧ st'.c.ibus = st.c.ibus ∧ st'.c.obus = st.c.obus := by
  simp only [bindOut, bind_ok] at h
  obtain ⟨s, s1, h1, h2⟩ := h
  obtain ⟨a, b, c⟩ := outputAt_ok h1
  obtain ⟨d, e, f⟩ := bindHandle_ok h2
  obtain ⟨p, hp, e2⟩ := key_at_mem (by trivial) a
  subst f e e2
  exact ⟨⟨p, hp, rfl, d⟩, b, c⟩

/-- `input(key)` followed by `reset`. -/
theorem inputBind_ok {k : Key} (hk : Key.flat k) {ty : HandleTy} {s : Signal} {st s1 st' : CState} {i : SigId}
    (h1 : inputAt k st = .ok s s1) (h2 : bindHandle ty s s1 = .ok i st') :
    Usable st.c.ibus ty i ∧ st'.c.ibus = st.c.ibus ∧ st'.c.obus = st.c.obus := by
  obtain ⟨a, b, c⟩ := inputAt_ok h1
  obtain ⟨d, e, f⟩ := bindHandle_ok h2
  obtain ⟨p, hp, e2⟩ := key_at_mem hk a
  subst f e e2
  exact ⟨⟨p, hp, rfl, d⟩, b, c⟩

theorem connDeriv_ok {o : SigId} {oty : Ty} {d : Signal} {st st' : CState}
    (h : connDeriv o oty d st = .ok () st') :
    (setDeriv oty (st.d o) d).1 = .ok () ∧ st'.c = st.c := by
  simp only [connDeriv] at h
  split at h
  · rename_i h1; simp at h; subst h; exact ⟨h1, rfl⟩
  · simp at h

theorem adjustLink_ok {s : SigId} {f : Flags → Flags} {st st' : CState}
    (h : adjustLink s f st = .ok () st') : st'.c.ibus = st.c.ibus ∧ st'.c.obus = st.c.obus := by
  simp [adjustLink] at h; subst h; exact ⟨rfl, rfl⟩

theorem deriv_type {ty : VTy} {os d : Signal} {old : Option SigId} (ho : HasType ty.handle os)
    (h : (setDeriv (tyOf os) old d).1 = .ok ()) : HasType ty.handle d := by
  rcases (C10_deriv (tyOf os) old d).1.1 h with ⟨h1, i, rfl⟩ | ⟨n, i, h1, rfl⟩
  · cases ty <;> cases ho <;> simp [tyOf] at h1
    constructor
  · cases ty <;> cases ho <;> simp [tyOf] at h1
    constructor

theorem integ_ok {ty : VTy} {st s1 s2 s3 s4 s5 s6 : CState} {os i : Signal} {o : SigId}
    (h1 : outputAt (.idx 0) st = .ok os s1) (h2 : bindHandle ty.handle os s1 = .ok o s2)
    (h3 : inputAt (.idx 0) s2 = .ok i s3) (h4 : connDeriv o (tyOf os) i s3 = .ok () s4)
    {f g : Flags → Flags} {x y : SigId}
    (h5 : adjustLink x f s4 = .ok () s5) (h6 : adjustLink y g s5 = .ok () s6) :
    Usable st.c.ibus ty.handle i.id ∧ Usable st.c.obus ty.handle o ∧
    s6.c.ibus = st.c.ibus ∧ s6.c.obus = st.c.obus := by
  obtain ⟨a1, a2, a3⟩ := outputAt_ok h1
  obtain ⟨b1, b2, b3⟩ := bindHandle_ok h2
  obtain ⟨c1, c2, c3⟩ := inputAt_ok h3
  obtain ⟨d1, d2⟩ := connDeriv_ok h4
  obtain ⟨e1, e2⟩ := adjustLink_ok h5
  obtain ⟨f1, f2⟩ := adjustLink_ok h6
  subst b2 b3
  obtain ⟨p, hp, ep⟩ := key_at_mem (by trivial) a1
  obtain ⟨q, hq, eq⟩ := key_at_mem (by trivial) c1
  refine ⟨⟨q, by rw [← a2]; exact hq, by rw [eq], by rw [eq]; exact deriv_type b1 d1⟩,
    ⟨p, hp, by rw [ep], by rw [ep]; exact b1⟩, ?_, ?_⟩
  · rw [f1, e1, d2, c2, a2]
  · rw [f2, e2, d2, c3, a3]

theorem pointwise_all {es fs : Entries} {ty : HandleTy} (hsub : ∀ p ∈ fs, p ∈ es)
    (h : fs.all (fun p => ty.accepts p.2) = true) :
    Pointwise (Usable es) (List.replicate fs.length ty) (fs.map (fun p => p.2.id)) := by
  induction fs with
  | nil => trivial
  | cons p fs ih =>
    simp only [List.all_cons, Bool.and_eq_true] at h
    refine ⟨⟨p, hsub p (by simp), rfl, (accepts_iff _ _).1 h.1⟩, ih (fun q hq => hsub q (by simp [hq])) h.2⟩

/-- C10 (partial): in debug builds for every class, and in release builds for every class but Add and
Multiply, `connect` only succeeds if all handles refer to signals of their types. -/
theorem C10_partial (dbg : Bool) (c : Cls) (hc : dbg = true ∨ ∀ ty, c ≠ .fold ty) :
    C10_full dbg c := by
  intro ibus obus st st' b h
  cases c with
  | sio ty =>
    simp only [Cls.connect, bind_ok] at h
    obtain ⟨_, s1, h1, i, s2, h2, o, s3, h3, h4⟩ := h
    simp at h4; obtain ⟨rfl, rfl⟩ := h4
    obtain ⟨a1, a2⟩ := blockConnect_ok h1
    obtain ⟨b1, b2, b3⟩ := bindIn_ok h2
    obtain ⟨c1, c2, c3⟩ := bindOut_ok h3
    rw [a1] at b1; rw [b3, a2] at c1
    exact ⟨⟨b1, trivial⟩, c1⟩
  | memory ty =>
    simp only [Cls.connect, bind_ok] at h
    obtain ⟨_, s1, h1, i, s2, h2, o, s3, h3, _, s4, h5, h4⟩ := h
    simp at h4; obtain ⟨rfl, rfl⟩ := h4
    obtain ⟨a1, a2⟩ := blockConnect_ok h1
    obtain ⟨b1, b2, b3⟩ := bindIn_ok h2
    obtain ⟨c1, c2, c3⟩ := bindOut_ok h3
    rw [a1] at b1; rw [b3, a2] at c1
    exact ⟨⟨b1, trivial⟩, c1⟩
  | so ty nIn =>
    simp only [Cls.connect, bind_ok] at h
    obtain ⟨_, s1, h1, o, s2, h2, h4⟩ := h
    simp at h4; obtain ⟨rfl, rfl⟩ := h4
    obtain ⟨a1, a2⟩ := blockConnect_ok h1
    obtain ⟨b1, b2, b3⟩ := bindOut_ok h2
    rw [a2] at b1
    exact ⟨trivial, b1⟩
  | fold ty =>
    rcases hc with rfl | hc
    · simp only [Cls.connect, bind_ok] at h
      obtain ⟨_, s1, h1, o, s2, h2, _, s3, h3, _, s4, h5, h4⟩ := h
      simp at h4; obtain ⟨rfl, rfl⟩ := h4
      obtain ⟨a1, a2⟩ := blockConnect_ok h1
      obtain ⟨b1, b2, b3⟩ := bindOut_ok h2
      rw [debugVerify_ok] at h5
      rw [a2] at b1
      exact ⟨pointwise_all (fun _ hp => hp) (h5.1 rfl), b1⟩
    · exact (hc ty rfl).elim
  | binary ty =>
    simp only [Cls.connect, bind_ok] at h
    obtain ⟨_, s1, h1, o, s2, h2, a, s3, h3, i, s4, h4, a', s5, h5, i', s6, h6, h7⟩ := h
    simp at h7; obtain ⟨rfl, rfl⟩ := h7
    obtain ⟨a1, a2⟩ := blockConnect_ok h1
    obtain ⟨b1, b2, b3⟩ := bindOut_ok h2
    obtain ⟨c1, c2, c3⟩ := inputBind_ok (by trivial) h3 h4
    obtain ⟨d1, d2, d3⟩ := inputBind_ok (by trivial) h5 h6
    rw [a2] at b1; rw [b2, a1] at c1; rw [c2, b2, a1] at d1
    exact ⟨⟨c1, d1, trivial⟩, b1⟩
  | integrator ty =>
    simp only [Cls.connect, bind_ok] at h
    obtain ⟨_, s1, h1, os, s2, h2, o, s3, h3, i, s4, h4, _, s5, h5, _, s6, h6, _, s7, h7, h8⟩ := h
    simp at h8; obtain ⟨rfl, rfl⟩ := h8
    obtain ⟨a1, a2⟩ := blockConnect_ok h1
    obtain ⟨b1, b2, b3, b4⟩ := integ_ok h2 h3 h4 h5 h6 h7
    rw [a1] at b1; rw [a2] at b2
    exact ⟨⟨b1, trivial⟩, b2⟩
  | trigInt ty =>
    simp only [Cls.connect, bind_ok] at h
    obtain ⟨_, s1, h1, os, s2, h2, o, s3, h3, i, s4, h4, _, s5, h5, _, s6, h6, _, s7, h7, tr, s8, h8,
      tr', s9, h9, h10⟩ := h
    simp at h10; obtain ⟨rfl, rfl⟩ := h10
    obtain ⟨a1, a2⟩ := blockConnect_ok h1
    obtain ⟨b1, b2, b3, b4⟩ := integ_ok h2 h3 h4 h5 h6 h7
    obtain ⟨c1, c2, c3⟩ := inputBind_ok (by show _ = none; decide +kernel) h8 h9
    rw [b3, a1] at c1
    rw [a1] at b1; rw [a2] at b2
    exact ⟨⟨b1, c1, trivial⟩, b2⟩
  | delay ty =>
    simp only [Cls.connect, bind_ok] at h
    obtain ⟨_, s1, h1, o, s2, h2, x, s3, h3, x', s4, h4, d, s5, h5, d', s6, h6, i, s7, h7, i', s8, h8,
      h9⟩ := h
    simp at h9; obtain ⟨rfl, rfl⟩ := h9
    obtain ⟨a1, a2⟩ := blockConnect_ok h1
    obtain ⟨b1, b2, b3⟩ := bindOut_ok h2
    obtain ⟨c1, c2, c3⟩ := inputBind_ok (by show _ = none; decide +kernel) h3 h4
    obtain ⟨d1, d2, d3⟩ := inputBind_ok (by show _ = none; decide +kernel) h5 h6
    obtain ⟨e1, e2, e3⟩ := inputBind_ok (by show _ = none; decide +kernel) h7 h8
    rw [a2] at b1; rw [b2, a1] at c1; rw [c2, b2, a1] at d1; rw [d2, c2, b2, a1] at e1
    exact ⟨⟨c1, d1, e1, trivial⟩, b1⟩
  | plain nI nO =>
    simp only [Cls.connect, bind_ok] at h
    obtain ⟨_, s1, h1, h2⟩ := h
    simp at h2; obtain ⟨rfl, rfl⟩ := h2
    exact ⟨trivial, trivial⟩

/-- C10 is false of release builds: Add and Multiply do not check their inputs (add.hpp:48-56 is under
`POOYA_DEBUG`), so a Boolean signal is accepted as a summand of type double. -/
theorem C10_refuted : ¬ C10_full false (.fold .double) := by
  intro h
  have := h [(str "a", .val 0 .bool)] [(str "o", .val 1 .scalar)] ⟨{}, fun _ => none⟩
    ⟨{ connected := true, ibus := [(str "a", .val 0 .bool)], obus := [(str "o", .val 1 .scalar)],
       links := [(0, 9#32), (1, 2#32)] }, fun _ => none⟩ ⟨[0], some 1⟩ (by rfl)
  obtain ⟨⟨⟨p, hp, _, ht⟩, _⟩, _⟩ := this
  simp at hp; subst hp
  cases ht

/-- A delay connected to signals of the right types. -/
example : (match (Cls.delay .double).connect true
    [(str "in", .val 0 .scalar), (str "delay", .val 1 .scalar), (str "initial", .val 2 .scalar)]
    [(str "out", .val 3 .scalar)] ⟨{}, fun _ => none⟩ with
    | .ok b _ => some b
    | .error _ _ => none) = some ⟨[0, 1, 2], some 3⟩ := by decide +kernel

/-- Wrong input type: rejected, with the block already marked connected. -/
example : ∃ st', (Cls.sio .double).connect false
    [(str "a", .val 0 .bool)] [(str "o", .val 1 .scalar)] ⟨{}, fun _ => none⟩ =
      .error (.exc .invalidType) st' := ⟨_, rfl⟩

example : HasType .array (.val 3 (.array 7)) := .array 3 7
example : ¬ HasType .scalar (.val 3 (.array 1)) := by intro h; cases h

end Pooya.C10
