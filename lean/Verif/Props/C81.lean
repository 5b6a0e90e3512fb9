import Verif.Proof.Accept

/-! C81: which calls of `connect` are accepted, and what they make of the object. -/

namespace Pooya

set_option linter.unusedSectionVars false

variable {K : Type}

namespace C81

open Accept

theorem count_some {es : Entries} {n : Nat} : es.Count (some n) ↔ es.length = n := by
  simp [Entries.Count]

theorem only_iff {es : Entries} {ty : VTy} {s : SigId} : es.Only ty s ↔ es.length = 1 ∧ ∃ x, (∃ l, es[0]? = some (l, x)) ∧ x.IsOf ty s := by
  unfold Entries.Only
  constructor
  · rintro ⟨l, x, rfl, h⟩; exact ⟨rfl, x, ⟨l, rfl⟩, h⟩
  · rintro ⟨h1, x, ⟨l, h2⟩, h3⟩
    rcases es with _ | ⟨q, _ | ⟨q', es⟩⟩
    · cases h1
    · cases h2; exact ⟨l, x, rfl, h3⟩
    · cases h1

theorem nodot_trigger : (46 : UInt8) ∉ str "trigger" := by decide +kernel
theorem nodot_in : (46 : UInt8) ∉ str "in" := by decide +kernel
theorem nodot_delay : (46 : UInt8) ∉ str "delay" := by decide +kernel
theorem nodot_initial : (46 : UInt8) ∉ str "initial" := by decide +kernel

variable {ibus obus : Entries} {dbg : Bool} {b : Bound}

theorem sio_ok {ty : VTy} : bounds dbg ibus obus (.sio ty) = .ok b ↔ ∃ x o, ibus.Only ty x ∧ obus.Only ty o ∧ b = ⟨[x], some o⟩ := by
  simp only [bounds, bind_ok_iff, ports_ok, count_some, idx_ok, handle_ok, only_iff, Except.ok.injEq]
  constructor
  · rintro ⟨_, ⟨h1, h2⟩, x, h3, i, h4, y, h5, o, h6, rfl⟩; exact ⟨i, o, ⟨h1, x, h3, h4⟩, ⟨h2, y, h5, h6⟩, rfl⟩
  · rintro ⟨i, o, ⟨h1, x, h3, h4⟩, ⟨h2, y, h5, h6⟩, rfl⟩; exact ⟨(), ⟨h1, h2⟩, x, h3, i, h4, y, h5, o, h6, rfl⟩

theorem memory_ok {ty : VTy} : bounds dbg ibus obus (.memory ty) = .ok b ↔ ∃ x o, ibus.Only ty x ∧ obus.Only ty o ∧ b = ⟨[x], some o⟩ :=
  sio_ok (dbg := dbg)

theorem so_ok {ty : VTy} {n : Option Nat} : bounds dbg ibus obus (.so ty n) = .ok b ↔ ∃ o, ibus.Count n ∧ obus.Only ty o ∧ b = ⟨[], some o⟩ := by
  simp only [bounds, bind_ok_iff, ports_ok, count_some, idx_ok, handle_ok, only_iff, Except.ok.injEq]
  constructor
  · rintro ⟨_, ⟨h1, h2⟩, y, h5, o, h6, rfl⟩; exact ⟨o, h1, ⟨h2, y, h5, h6⟩, rfl⟩
  · rintro ⟨o, h1, ⟨h2, y, h5, h6⟩, rfl⟩; exact ⟨(), ⟨h1, h2⟩, y, h5, o, h6, rfl⟩

theorem plain_ok {n m : Option Nat} : bounds dbg ibus obus (.plain n m) = .ok b ↔ ibus.Count n ∧ obus.Count m ∧ b = ⟨[], none⟩ := by
  simp only [bounds, bind_ok_iff, ports_ok, Except.ok.injEq]
  constructor
  · rintro ⟨_, ⟨h1, h2⟩, rfl⟩; exact ⟨h1, h2, rfl⟩
  · rintro ⟨h1, h2, rfl⟩; exact ⟨(), ⟨h1, h2⟩, rfl⟩

theorem verify_ok {dbg c : Bool} {x : Exc} {u : Unit} : (if dbg && !c then .error (.exc x) else .ok () : Except Err Unit) = .ok u ↔ (dbg = true → c = true) := by
  cases dbg <;> cases c <;> simp

theorem fold_ok {ty : VTy} : bounds dbg ibus obus (.fold ty) = .ok b ↔
    ∃ o, obus.Only ty o ∧ (dbg = true → ibus ≠ [] ∧ ∀ p ∈ ibus, ∃ s, p.2.IsOf ty s) ∧ b = ⟨ibus.map (fun p => p.2.id), some o⟩ := by
  have e1 : (decide (1 ≤ ibus.length)) = true ↔ ibus ≠ [] := by cases ibus <;> simp
  have e2 : (ibus.all fun p => ty.handle.accepts p.2) = true ↔ ∀ p ∈ ibus, ∃ s, p.2.IsOf ty s := by
    rw [List.all_eq_true]
    exact ⟨fun h p hp => (accepts_iff ty p.2).1 (h p hp), fun h p hp => (accepts_iff ty p.2).2 (h p hp)⟩
  simp only [bounds, bind_ok_iff, ports_ok, count_some, idx_ok, handle_ok, only_iff, Except.ok.injEq, verify_ok, e1, e2]
  constructor
  · rintro ⟨_, ⟨_, h2⟩, y, h5, o, h6, _, h7, _, h8, rfl⟩; exact ⟨o, ⟨h2, y, h5, h6⟩, fun h => ⟨h7 h, h8 h⟩, rfl⟩
  · rintro ⟨o, ⟨h2, y, h5, h6⟩, h7, rfl⟩
    exact ⟨(), ⟨(fun m h => by cases h), h2⟩, y, h5, o, h6, (), fun h => (h7 h).1, (), fun h => (h7 h).2, rfl⟩

theorem two_iff {es : Entries} {P : Signal → Signal → Prop} : (∃ l x l' y, es = [(l, x), (l', y)] ∧ P x y) ↔
    es.length = 2 ∧ ∃ x, (∃ l, es[0]? = some (l, x)) ∧ ∃ y, (∃ l, es[1]? = some (l, y)) ∧ P x y := by
  constructor
  · rintro ⟨l, x, l', y, rfl, h⟩; exact ⟨rfl, x, ⟨l, rfl⟩, y, ⟨l', rfl⟩, h⟩
  · rintro ⟨h1, x, ⟨l, h2⟩, y, ⟨l', h3⟩, h⟩
    rcases es with _ | ⟨q, _ | ⟨q', _ | ⟨q'', es⟩⟩⟩
    · cases h1
    · cases h1
    · cases h2; cases h3; exact ⟨l, x, l', y, rfl, h⟩
    · cases h1

theorem binary_ok {ty : VTy} : bounds dbg ibus obus (.binary ty) = .ok b ↔
    ∃ o s s', (∃ l x l' y, ibus = [(l, x), (l', y)] ∧ x.IsOf ty s ∧ y.IsOf ty s') ∧ obus.Only ty o ∧ b = ⟨[s, s'], some o⟩ := by
  simp only [bounds, bind_ok_iff, ports_ok, count_some, idx_ok, handle_ok, only_iff, Except.ok.injEq, two_iff]
  constructor
  · rintro ⟨_, ⟨h1, h2⟩, y, h5, o, h6, a, h7, s, h8, c, h9, s', h10, rfl⟩; exact ⟨o, s, s', ⟨h1, a, h7, c, h9, h8, h10⟩, ⟨h2, y, h5, h6⟩, rfl⟩
  · rintro ⟨o, s, s', ⟨h1, a, h7, c, h9, h8, h10⟩, ⟨h2, y, h5, h6⟩, rfl⟩; exact ⟨(), ⟨h1, h2⟩, y, h5, o, h6, a, h7, s, h8, c, h9, s', h10, rfl⟩

theorem integrator_ok {ty : VTy} : bounds dbg ibus obus (.integrator ty) = .ok b ↔
    ∃ l x l' o t, ibus = [(l, .val x t)] ∧ obus = [(l', .val o t)] ∧ t.vty = ty ∧ (ty = .double ∨ ty = .array) ∧ b = ⟨[x], some o⟩ := by
  simp only [bounds, bind_ok_iff, ports_ok, count_some, idx_ok, handle_ok, Except.ok.injEq, deriv_ok]
  constructor
  · rintro ⟨_, ⟨h1, h2⟩, y, ⟨l', h3⟩, o, ⟨t, rfl, h4⟩, x, ⟨l, h5⟩, _, ⟨h6, s, h7⟩, rfl⟩
    have h7 : x = .val s t := h7
    subst h7
    rcases ibus with _ | ⟨q, _ | ⟨q', es⟩⟩ <;> cases h1
    rcases obus with _ | ⟨r, _ | ⟨r', es⟩⟩ <;> cases h2
    cases h3; cases h5
    exact ⟨l, s, l', o, t, rfl, rfl, h4, h4 ▸ h6, rfl⟩
  · rintro ⟨l, x, l', o, t, rfl, rfl, rfl, h, rfl⟩
    exact ⟨(), ⟨rfl, rfl⟩, _, ⟨l', rfl⟩, o, ⟨t, rfl, rfl⟩, _, ⟨l, rfl⟩, (), ⟨h, x, rfl⟩, rfl⟩

theorem bool_ok (s : Signal) (i : SigId) : handle .bool s = .ok i ↔ s.IsOf .bool i := handle_ok .bool s i

theorem scalar_ok (s : Signal) (i : SigId) : handle .scalar s = .ok i ↔ s.IsOf .double i := handle_ok .double s i

theorem trigInt_ok {ty : VTy} : bounds dbg ibus obus (.trigInt ty) = .ok b ↔
    ∃ l x q l' o t tr, ibus = [(l, .val x t), q] ∧ obus = [(l', .val o t)] ∧ t.vty = ty ∧ (ty = .double ∨ ty = .array) ∧
      ibus.Named (str "trigger") .bool tr ∧ b = ⟨[x, tr], some o⟩ := by
  simp only [bounds, bind_ok_iff, ports_ok, count_some, idx_ok, handle_ok, Except.ok.injEq, deriv_ok, bool_ok, label_ok _ _ _ nodot_trigger]
  constructor
  · rintro ⟨_, ⟨h1, h2⟩, y, ⟨l', h3⟩, o, ⟨t, rfl, h4⟩, x, ⟨l, h5⟩, _, ⟨h6, s, h7⟩, z, h8, tr, h9, rfl⟩
    have h7 : x = .val s t := h7
    subst h7
    have hn : ibus.Named (str "trigger") .bool tr := ⟨z, h8, h9⟩
    rcases ibus with _ | ⟨q, _ | ⟨q', _ | ⟨q'', es⟩⟩⟩ <;> cases h1
    rcases obus with _ | ⟨r, _ | ⟨r', es⟩⟩ <;> cases h2
    cases h3; cases h5
    exact ⟨l, s, q', l', o, t, tr, rfl, rfl, h4, h4 ▸ h6, hn, rfl⟩
  · rintro ⟨l, x, q, l', o, t, tr, rfl, rfl, rfl, h, ⟨z, h8, h9⟩, rfl⟩
    exact ⟨(), ⟨rfl, rfl⟩, _, ⟨l', rfl⟩, o, ⟨t, rfl, rfl⟩, _, ⟨l, rfl⟩, (), ⟨h, x, rfl⟩, z, h8, tr, h9, rfl⟩

theorem delay_ok {ty : VTy} : bounds dbg ibus obus (.delay ty) = .ok b ↔
    ∃ x d i o, ibus.length = 3 ∧ ibus.Named (str "in") ty x ∧ ibus.Named (str "delay") .double d ∧ ibus.Named (str "initial") ty i ∧ obus.Only ty o ∧
      b = ⟨[x, d, i], some o⟩ := by
  simp only [bounds, bind_ok_iff, ports_ok, count_some, idx_ok, handle_ok, Except.ok.injEq, only_iff, scalar_ok, label_ok _ _ _ nodot_in,
    label_ok _ _ _ nodot_delay, label_ok _ _ _ nodot_initial]
  constructor
  · rintro ⟨_, ⟨h1, h2⟩, y, h5, o, h6, a, h7, x, h8, c, h9, d, h10, e, h11, i, h12, rfl⟩
    exact ⟨x, d, i, o, h1, ⟨a, h7, h8⟩, ⟨c, h9, h10⟩, ⟨e, h11, h12⟩, ⟨h2, y, h5, h6⟩, rfl⟩
  · rintro ⟨x, d, i, o, h1, ⟨a, h7, h8⟩, ⟨c, h9, h10⟩, ⟨e, h11, h12⟩, ⟨h2, y, h5, h6⟩, rfl⟩
    exact ⟨(), ⟨h1, h2⟩, y, h5, o, h6, a, h7, x, h8, c, h9, d, h10, e, h11, i, h12, rfl⟩

theorem nil_iff {es : Entries} : es.Count (some 0) ↔ es = [] := by rw [count_some]; exact List.length_eq_zero_iff

/-- The calculation and the specification say the same. -/
theorem made_iff (mk : Make K) (k : Kind K) : made dbg ibus obus mk = .ok k ↔ mk.Becomes dbg ibus obus k := by
  unfold made
  rw [bind_ok_iff]
  cases mk with
  | const ty v =>
    simp only [Make.cls, so_ok, nil_iff]
    constructor
    · rintro ⟨_, ⟨o, h1, h2, rfl⟩, h⟩; cases h; exact .const h1 h2
    · intro h; cases h with
      | const h1 h2 => exact ⟨_, ⟨_, h1, h2, rfl⟩, rfl⟩
  | source ty f =>
    simp only [Make.cls, so_ok]
    constructor
    · rintro ⟨_, ⟨o, h1, h2, rfl⟩, h⟩; cases h; exact .source h2
    · intro h; cases h with
      | source h2 => exact ⟨_, ⟨_, (fun m h => by cases h), h2, rfl⟩, rfl⟩
  | sources n f ks =>
    simp only [Make.cls, plain_ok, nil_iff]
    constructor
    · rintro ⟨_, ⟨h1, h2, rfl⟩, h⟩
      simp only [Make.kind] at h
      cases hl : lookupVals obus ks with
      | error e => rw [hl] at h; cases h
      | ok os => rw [hl] at h; cases h; exact .sources h1 h2 ((lookups_ok _ _ _).1 hl)
    · intro h; cases h with
      | sources h1 h2 h3 => exact ⟨_, ⟨h1, h2, rfl⟩, by simp only [Make.kind, (lookups_ok _ _ _).2 h3]⟩
  | so ty n f ks =>
    simp only [Make.cls, so_ok]
    constructor
    · rintro ⟨_, ⟨o, h1, h2, rfl⟩, h⟩
      simp only [Make.kind] at h
      cases hl : lookupVals ibus ks with
      | error e => rw [hl] at h; cases h
      | ok os => rw [hl] at h; cases h; exact .so h1 h2 ((lookups_ok _ _ _).1 hl)
    · intro h; cases h with
      | so h1 h2 h3 => exact ⟨_, ⟨_, h1, h2, rfl⟩, by simp only [Make.kind, (lookups_ok _ _ _).2 h3]⟩
  | func n m f ks ks' =>
    simp only [Make.cls, plain_ok]
    constructor
    · rintro ⟨_, ⟨h1, h2, rfl⟩, h⟩
      simp only [Make.kind] at h
      cases hl : lookupVals ibus ks with
      | error e => rw [hl] at h; cases h
      | ok is =>
        cases hl' : lookupVals obus ks' with
        | error e => rw [hl, hl'] at h; cases h
        | ok os => rw [hl, hl'] at h; cases h; exact .func h1 h2 ((lookups_ok _ _ _).1 hl) ((lookups_ok _ _ _).1 hl')
    · intro h; cases h with
      | func h1 h2 h3 h4 => exact ⟨_, ⟨h1, h2, rfl⟩, by simp only [Make.kind, (lookups_ok _ _ _).2 h3, (lookups_ok _ _ _).2 h4]⟩
  | custom n m ks ks' c =>
    simp only [Make.cls, plain_ok, bind_ok_iff, lookups_ok]
    constructor
    · rintro ⟨_, ⟨h1, h2, rfl⟩, is, h3, os, h4, h⟩; cases h; exact .custom h1 h2 h3 h4
    · intro h; cases h with
      | custom h1 h2 h3 h4 => exact ⟨_, ⟨h1, h2, rfl⟩, _, h3, _, h4, rfl⟩
  | gain ty v =>
    simp only [Make.cls, sio_ok]
    constructor
    · rintro ⟨_, ⟨x, o, h1, h2, rfl⟩, h⟩; cases h; exact .gain h1 h2
    · intro h; cases h with
      | gain h1 h2 => exact ⟨_, ⟨_, _, h1, h2, rfl⟩, rfl⟩
  | pipe ty =>
    simp only [Make.cls, sio_ok]
    constructor
    · rintro ⟨_, ⟨x, o, h1, h2, rfl⟩, h⟩; cases h; exact .pipe h1 h2
    · intro h; cases h with
      | pipe h1 h2 => exact ⟨_, ⟨_, _, h1, h2, rfl⟩, rfl⟩
  | derivative ty =>
    simp only [Make.cls, sio_ok]
    constructor
    · rintro ⟨_, ⟨x, o, h1, h2, rfl⟩, h⟩; cases h; exact .derivative h1 h2
    · intro h; cases h with
      | derivative h1 h2 => exact ⟨_, ⟨_, _, h1, h2, rfl⟩, rfl⟩
  | siso ty f =>
    simp only [Make.cls, sio_ok]
    constructor
    · rintro ⟨_, ⟨x, o, h1, h2, rfl⟩, h⟩; cases h; exact .siso h1 h2
    · intro h; cases h with
      | siso h1 h2 => exact ⟨_, ⟨_, _, h1, h2, rfl⟩, rfl⟩
  | memory ty =>
    simp only [Make.cls, memory_ok]
    constructor
    · rintro ⟨_, ⟨x, o, h1, h2, rfl⟩, h⟩; cases h; exact .memory h1 h2
    · intro h; cases h with
      | memory h1 h2 => exact ⟨_, ⟨_, _, h1, h2, rfl⟩, rfl⟩
  | add ty v =>
    simp only [Make.cls, fold_ok]
    constructor
    · rintro ⟨_, ⟨o, h1, h2, rfl⟩, h⟩; cases h; exact .add h1 h2
    · intro h; cases h with
      | add h1 h2 => exact ⟨_, ⟨_, h1, h2, rfl⟩, rfl⟩
  | multiply ty v =>
    simp only [Make.cls, fold_ok]
    constructor
    · rintro ⟨_, ⟨o, h1, h2, rfl⟩, h⟩; cases h; exact .multiply h1 h2
    · intro h; cases h with
      | multiply h1 h2 => exact ⟨_, ⟨_, h1, h2, rfl⟩, rfl⟩
  | subtract ty =>
    simp only [Make.cls, binary_ok]
    constructor
    · rintro ⟨_, ⟨o, s, s', ⟨l, x, l', y, h1, h2, h3⟩, h4, rfl⟩, h⟩; cases h; exact .subtract h1 h2 h3 h4
    · intro h; cases h with
      | subtract h1 h2 h3 h4 => exact ⟨_, ⟨_, _, _, ⟨_, _, _, _, h1, h2, h3⟩, h4, rfl⟩, rfl⟩
  | divide ty =>
    simp only [Make.cls, binary_ok]
    constructor
    · rintro ⟨_, ⟨o, s, s', ⟨l, x, l', y, h1, h2, h3⟩, h4, rfl⟩, h⟩; cases h; exact .divide h1 h2 h3 h4
    · intro h; cases h with
      | divide h1 h2 h3 h4 => exact ⟨_, ⟨_, _, _, ⟨_, _, _, _, h1, h2, h3⟩, h4, rfl⟩, rfl⟩
  | delay ty ls =>
    simp only [Make.cls, delay_ok]
    constructor
    · rintro ⟨_, ⟨x, d, i, o, h1, h2, h3, h4, h5, rfl⟩, h⟩; cases h; exact .delay h1 h2 h3 h4 h5
    · intro h; cases h with
      | delay h1 h2 h3 h4 h5 => exact ⟨_, ⟨_, _, _, _, h1, h2, h3, h4, h5, rfl⟩, rfl⟩
  | integrator ty =>
    simp only [Make.cls, integrator_ok]
    constructor
    · rintro ⟨_, ⟨l, x, l', o, t, h1, h2, h3, h4, rfl⟩, h⟩; cases h; exact .integrator h1 h2 h3 h4
    · intro h; cases h with
      | integrator h1 h2 h3 h4 => exact ⟨_, ⟨_, _, _, _, _, h1, h2, h3, h4, rfl⟩, rfl⟩
  | trigInt ty =>
    simp only [Make.cls, trigInt_ok]
    constructor
    · rintro ⟨_, ⟨l, x, q, l', o, t, tr, h1, h2, h3, h4, h5, rfl⟩, h⟩; cases h; exact .trigInt h1 h2 h3 h4 h5
    · intro h; cases h with
      | trigInt h1 h2 h3 h4 h5 => exact ⟨_, ⟨_, _, _, _, _, _, _, h1, h2, h3, h4, h5, rfl⟩, rfl⟩

theorem kind_throws (mk : Make K) (hc : ∀ a b c e f, mk ≠ .custom a b c e f) (h : bounds dbg ibus obus mk.cls = .ok b) : Throws (mk.kind ibus obus b) := by
  cases mk with
  | const ty v => obtain ⟨o, _, _, rfl⟩ := so_ok.1 h; exact .ok _
  | source ty f => obtain ⟨o, _, _, rfl⟩ := so_ok.1 h; exact .ok _
  | sources n f ks =>
    obtain ⟨_, _, rfl⟩ := plain_ok.1 h
    simp only [Make.kind]
    have := Throws.lookups obus ks
    cases hl : lookupVals obus ks with
    | error e => obtain ⟨y, rfl⟩ := this e hl; exact .exc _
    | ok os => exact .ok _
  | so ty n f ks =>
    obtain ⟨o, _, _, rfl⟩ := so_ok.1 h
    simp only [Make.kind]
    have := Throws.lookups ibus ks
    cases hl : lookupVals ibus ks with
    | error e => obtain ⟨y, rfl⟩ := this e hl; exact .exc _
    | ok os => exact .ok _
  | func n m f ks ks' =>
    obtain ⟨_, _, rfl⟩ := plain_ok.1 h
    simp only [Make.kind]
    have h1 := Throws.lookups ibus ks
    have h2 := Throws.lookups obus ks'
    cases hl : lookupVals ibus ks with
    | error e => obtain ⟨y, rfl⟩ := h1 e hl; exact .exc _
    | ok is =>
      cases hl' : lookupVals obus ks' with
      | error e => obtain ⟨y, rfl⟩ := h2 e hl'; exact .exc _
      | ok os => exact .ok _
  | custom n m ks ks' c => exact (hc _ _ _ _ _ rfl).elim
  | gain ty v => obtain ⟨x, o, _, _, rfl⟩ := sio_ok.1 h; exact .ok _
  | pipe ty => obtain ⟨x, o, _, _, rfl⟩ := sio_ok.1 h; exact .ok _
  | derivative ty => obtain ⟨x, o, _, _, rfl⟩ := sio_ok.1 h; exact .ok _
  | siso ty f => obtain ⟨x, o, _, _, rfl⟩ := sio_ok.1 h; exact .ok _
  | memory ty => obtain ⟨x, o, _, _, rfl⟩ := memory_ok.1 h; exact .ok _
  | add ty v => obtain ⟨o, _, _, rfl⟩ := fold_ok.1 h; exact .ok _
  | multiply ty v => obtain ⟨o, _, _, rfl⟩ := fold_ok.1 h; exact .ok _
  | subtract ty => obtain ⟨o, s, s', _, _, rfl⟩ := binary_ok.1 h; exact .ok _
  | divide ty => obtain ⟨o, s, s', _, _, rfl⟩ := binary_ok.1 h; exact .ok _
  | delay ty ls => obtain ⟨x, d, i, o, _, _, _, _, _, rfl⟩ := delay_ok.1 h; exact .ok _
  | integrator ty => obtain ⟨l, x, l', o, t, _, _, _, _, rfl⟩ := integrator_ok.1 h; exact .ok _
  | trigInt ty => obtain ⟨l, x, q, l', o, t, tr, _, _, _, _, _, rfl⟩ := trigInt_ok.1 h; exact .ok _

theorem bounds_throws (c : Cls) : Throws (bounds dbg ibus obus c) := by
  cases c <;> unfold bounds <;>
    repeat (first
      | exact .ok _
      | refine .bind (.ports _ _) fun _ _ => ?_
      | refine .bind (.key _ _) fun _ _ => ?_
      | refine .bind (.handle _ _) fun _ _ => ?_
      | refine .bind (.deriv _ _) fun _ _ => ?_
      | refine .bind .ite fun _ _ => ?_)

theorem made_throws (mk : Make K) : Throws (made dbg ibus obus mk) := by
  unfold made
  refine .bind (bounds_throws _) fun b hb => ?_
  cases mk with
  | custom n m ks ks' c => exact .bind (.lookups _ _) fun _ _ => .bind (.lookups _ _) fun _ _ => .ok _
  | _ => exact kind_throws _ (fun _ _ _ _ _ h => by cases h) hb

end C81

/-- C81: a call of `connect` on a new object is accepted exactly if the buses have the entries the class asks for, and then the object uses these entries.
What happened to derivative links before does not matter. -/
theorem C81_accepts (dbg : Bool) (p : Wire K) (d : Derivs) (k : Kind K) :
    p.obj.Becomes dbg p.ibus p.obus k ↔ ∃ links d', p.connect dbg d = .ok (⟨p.id, links, k⟩, d') := by
  rw [← C81.made_iff]
  have h := Accept.fresh_made (ibus := p.ibus) (obus := p.obus) dbg p.obj d
  cases hm : Accept.made dbg p.ibus p.obus p.obj with
  | error e =>
    rw [hm] at h
    obtain ⟨st, h⟩ := h
    refine ⟨(fun h => by cases h), fun ⟨ls, d', h'⟩ => ?_⟩
    unfold Wire.connect at h'
    rw [h] at h'; cases h'
  | ok k' =>
    rw [hm] at h
    obtain ⟨st, h, _⟩ := h
    unfold Wire.connect
    rw [h]
    constructor
    · intro e; cases e; exact ⟨_, _, rfl⟩
    · rintro ⟨ls, d', e⟩; cases e; rfl

/-- C81: all other calls throw. -/
theorem C81_throws (dbg : Bool) (p : Wire K) (d : Derivs) (hn : ∀ k, ¬ p.obj.Becomes dbg p.ibus p.obus k) : ∃ x, p.connect dbg d = .error (.exc x) := by
  have h := Accept.fresh_made (ibus := p.ibus) (obus := p.obus) dbg p.obj d
  cases hm : Accept.made dbg p.ibus p.obus p.obj with
  | ok k => exact (hn k ((C81.made_iff _ _).1 hm)).elim
  | error e =>
    rw [hm] at h
    obtain ⟨st, h⟩ := h
    obtain ⟨x, rfl⟩ := C81.made_throws _ _ hm
    exact ⟨x, by unfold Wire.connect; rw [h]⟩

/-- C81: several objects are connected exactly if each of them is given buses that suit it; the order does not matter for that. -/
theorem C81_diagram (dbg : Bool) (ps : List (Wire K)) (d : Derivs) :
    ((∀ p ∈ ps, ∃ k, p.obj.Becomes dbg p.ibus p.obus k) →
      ∃ ls d', connectAll dbg ps d = .ok (ls, d') ∧ List.Forall₂ (fun p l => l.id = p.id ∧ p.obj.Becomes dbg p.ibus p.obus l.kind) ps ls) ∧
    ((∃ p ∈ ps, ∀ k, ¬ p.obj.Becomes dbg p.ibus p.obus k) → ∃ x, connectAll dbg ps d = .error (.exc x)) := by
  induction ps generalizing d with
  | nil => exact ⟨fun _ => ⟨[], d, rfl, .nil⟩, fun ⟨_, h, _⟩ => by cases h⟩
  | cons p ps ih =>
    by_cases hp : ∃ k, p.obj.Becomes dbg p.ibus p.obus k
    · obtain ⟨k, hk⟩ := hp
      obtain ⟨links, d1, h1⟩ := (C81_accepts dbg p d k).1 hk
      obtain ⟨i1, i2⟩ := ih d1
      unfold connectAll
      rw [h1]
      constructor
      · intro ha
        obtain ⟨ls, d2, h2, h3⟩ := i1 fun q hq => ha q (by simp [hq])
        exact ⟨⟨p.id, links, k⟩ :: ls, d2, by simp only [h2], .cons ⟨rfl, hk⟩ h3⟩
      · rintro ⟨q, hq, hn⟩
        rcases List.mem_cons.1 hq with rfl | hq
        · exact (hn k hk).elim
        · obtain ⟨x, hx⟩ := i2 ⟨q, hq, hn⟩
          exact ⟨x, by simp only [hx]⟩
    · have hn : ∀ k, ¬ p.obj.Becomes dbg p.ibus p.obus k := fun k hk => hp ⟨k, hk⟩
      obtain ⟨x, hx⟩ := C81_throws dbg p d hn
      exact ⟨fun ha => (hp (ha p (by simp))).elim, fun _ => ⟨x, by unfold connectAll; rw [hx]⟩⟩

/-- C81: what debug builds accept, release builds accept too, with the same result. -/
theorem C81_builds (p : Wire K) (k : Kind K) (h : p.obj.Becomes true p.ibus p.obus k) : p.obj.Becomes false p.ibus p.obus k := by
  obtain ⟨i, obj, ibus, obus⟩ := p
  simp only at *
  cases h <;> constructor <;> first | assumption | (intro h; cases h)

namespace C81

/-! ### Examples -/

theorem path {l : Str} (h : (46 : UInt8) ∉ l) : IsPath l [l] := ⟨by simp, by simpa using h, by simp [List.intercalate]⟩

def sig (s : SigId) (t : Ty) : Str × Signal := (str "x", .val s t)

/-- A `Sources` whose function assigns the signals `"a"` and `"b"`. -/
def srcs : Wire ℚ := ⟨0, .sources none (fun _ => ([], none)) [.label (str "a"), .label (str "b")], [], [(str "b", .val 1 .scalar), (str "a", .val 2 .int)]⟩

example : srcs.obj.Becomes true srcs.ibus srcs.obus (.sources (fun _ => ([], none)) [2, 1]) :=
  .sources rfl (fun _ h => by cases h) (.cons ⟨[str "a"], .int, path (by decide +kernel), .last ⟨[_], [], rfl, by decide +kernel⟩⟩
    (.cons ⟨[str "b"], .scalar, path (by decide +kernel), .last ⟨[], [_], rfl, by decide +kernel⟩⟩ .nil))

/-- A triggered integrator: the input comes first, the trigger is found by its label. -/
def trig : Wire ℚ := ⟨0, .trigInt .double, [(str "in", .val 1 .scalar), (str "trigger", .val 2 .bool)], [sig 3 .scalar]⟩

example : trig.obj.Becomes true trig.ibus trig.obus (.trigInt 1 2 3) :=
  .trigInt rfl rfl rfl (.inl rfl) ⟨_, ⟨[_], [], rfl, by decide +kernel⟩, .bool, rfl, rfl⟩

/-- A delay whose inputs are given in another order. -/
def late : Wire ℚ := ⟨0, .delay .double 1, [(str "initial", .val 1 .scalar), (str "in", .val 2 .scalar), (str "delay", .val 3 .scalar)], [sig 4 .scalar]⟩

example : late.obj.Becomes true late.ibus late.obus (.delay 1 2 3 1 4) :=
  .delay rfl ⟨_, ⟨[_], [_], rfl, by decide +kernel⟩, .scalar, rfl, rfl⟩ ⟨_, ⟨[_, _], [], rfl, by decide +kernel⟩, .scalar, rfl, rfl⟩
    ⟨_, ⟨[], [_, _], rfl, by decide +kernel⟩, .scalar, rfl, rfl⟩ ⟨_, _, rfl, .scalar, rfl, rfl⟩

/-- An integrator of arrays of different sizes is refused. -/
def wrong : Wire ℚ := ⟨0, .integrator .array, [sig 1 (.array 2)], [sig 2 (.array 3)]⟩

example : ∀ k, ¬ wrong.obj.Becomes true wrong.ibus wrong.obus k := by
  intro k h
  cases h with
  | integrator h1 h2 => cases h1; cases h2

example : wrong.connect true (fun _ => none) = .error (.exc .sizeMismatch) := rfl

/-- `Add` without inputs is accepted by release builds only. -/
example : (Make.add .double (.scalar (0 : ℚ))).Becomes false [] [sig 1 .scalar] (.add (.scalar 0) [] 1) ∧
    ∀ k, ¬ (Make.add .double (.scalar (0 : ℚ))).Becomes true [] [sig 1 .scalar] k :=
  ⟨(made_iff _ _).1 rfl, fun k h => by cases h with | add _ h => exact (h rfl).1 rfl⟩

end C81

end Pooya
