import Verif.Proof.Sized
import Verif.Proof.Integ
import Verif.Spec.Typed

/-! The blocks of a well-typed diagram do not run into undefined behaviour. -/

namespace Pooya

set_option linter.unusedSectionVars false

variable {K : Type} [Arith K] {pol : Policy} {cfg : Config K} {ty : SigId → Ty}

/-- How a part of a call may fail. -/
def Fails (pol : Policy) (cfg : Config K) (ty : SigId → Ty) (e : Err) (w : World K) : Prop := e.Fine pol ∧ (¬ cfg.Delays → w.Fine pol cfg ty)

/-- `x` keeps the diagram well typed and returns something in `Q`. -/
def Keeps (pol : Policy) (cfg : Config K) (ty : SigId → Ty) {α : Type} (x : M K α) (Q : α → Prop) : Prop :=
  Tri (World.Fine pol cfg ty) x (fun a w => w.Fine pol cfg ty ∧ Q a) (Fails pol cfg ty)

namespace Keeps
variable {α β : Type}

theorem bind {x : M K α} {f : α → M K β} {Q : α → Prop} {R : β → Prop} (hx : Keeps pol cfg ty x Q) (hf : ∀ a, Q a → Keeps pol cfg ty (f a) R) :
    Keeps pol cfg ty (x >>= f) R := Tri.bind hx (fun a => Tri.pull (hf a))

theorem pure {a : α} {Q : α → Prop} (h : Q a) : Keeps pol cfg ty (Pure.pure a : M K α) Q := fun _ hw => ⟨hw, h⟩

theorem throw {e : Err} {Q : α → Prop} (h : e.Fine pol) : Keeps pol cfg ty (throwE e : M K α) Q := fun _ hw => ⟨h, fun _ => hw⟩

theorem mono {x : M K α} {Q R : α → Prop} (h : Keeps pol cfg ty x Q) (hq : ∀ a, Q a → R a) : Keeps pol cfg ty x R :=
  Tri.weaken h (fun _ h => h) (fun _ _ h => ⟨h.1, hq _ h.2⟩) (fun _ _ h => h)

theorem getv (s : SigId) : Keeps pol cfg ty (Pooya.getv true s) (fun v => v.Fits (ty s)) := by
  intro w hw
  unfold Pooya.getv
  cases ha : (w.sig s).assigned with
  | false => simp only [Bool.not_false, Bool.and_self, if_true]; exact ⟨trivial, fun _ => hw⟩
  | true =>
    have := (hw.cells s).full ha
    cases hv : (w.sig s).value with
    | none => rw [hv] at this; cases this
    | some v =>
      simp only [Bool.not_true, Bool.and_false, Bool.false_eq_true, if_false]
      exact ⟨hw, hw.types s ▸ (hw.cells s).fits v hv⟩

theorem setv (s : SigId) {v : Val K} (hv : v.Goes pol (ty s)) : Keeps pol cfg ty (Pooya.setv true s v) (fun _ => True) := by
  intro w hw
  have hv' : v.hasTag (w.sig s).ty = true := by rw [hw.types s]; exact hv.1
  unfold Pooya.setv
  rw [hv']
  simp only [Bool.not_true, Bool.false_eq_true, if_false, Bool.true_and]
  by_cases h1 : (w.sig s).assigned = true
  · rw [if_pos h1]; exact ⟨trivial, fun _ => hw⟩
  · rw [if_neg h1]
    by_cases h2 : v.sizeOk (w.sig s).ty = true
    · simp only [h2, Bool.not_true, Bool.false_eq_true, if_false]
      refine ⟨⟨fun x => ?_, fun x => ?_, hw.members⟩, trivial⟩
      · by_cases hx : x = s
        · subst hx; simp [upd, hw.types x]
        · simp [upd, hx, hw.types x]
      · by_cases hx : x = s
        · subst hx
          refine ⟨fun _ => by simp [upd], fun v' e => ?_⟩
          simp only [upd, if_true, Option.some.injEq] at e ⊢
          exact e ▸ ⟨hv', h2⟩
        · have := hw.cells x
          simpa [upd, hx] using this
    · simp only [h2, Bool.not_false, if_true]
      refine ⟨?_, fun _ => hw⟩
      show pol.sizes = false
      cases hp : pol.sizes with
      | false => rfl
      | true => exact absurd (by rw [hw.types s]; exact hv.2 hp) h2

theorem liftE {x : Except Err α} {Q : α → Prop} (h : Yields pol Q x) : Keeps pol cfg ty (Pooya.liftE x : M K α) Q := by
  cases x with
  | ok a => exact fun _ hw => ⟨hw, h⟩
  | error e => exact fun _ hw => ⟨h, fun _ => hw⟩

theorem throwOpt {o : Option Err} (h : ∀ e, o = some e → e.Fine pol) : Keeps pol cfg ty (Pooya.throwOpt o : M K Unit) (fun _ => True) := by
  cases o with
  | none => exact pure trivial
  | some e => exact throw (h e rfl)

theorem emit (e : Event K) : Keeps pol cfg ty (Pooya.emit e) (fun _ => True) := fun _ hw => ⟨⟨hw.types, hw.cells, hw.members⟩, trivial⟩

theorem getMem {l : Leaf K} (hl : l ∈ cfg.model.leaves) : Keeps pol cfg ty (Pooya.getMem l.id) (fun m => l.Members pol ty m) :=
  fun _ hw => ⟨hw, hw.members l hl⟩

theorem setMem (h : cfg.WellTyped pol ty) {l : Leaf K} (hl : l ∈ cfg.model.leaves) {m : Mem K} (hm : l.Members pol ty m) :
    Keeps pol cfg ty (Pooya.setMem l.id m) (fun _ => True) := by
  intro w hw
  refine ⟨⟨hw.types, hw.cells, fun l' hl' => ?_⟩, trivial⟩
  by_cases e : l'.id = l.id
  · rw [leaf_eq h.proper hl' hl e]
    simpa [upd] using hm
  · have := hw.members l' hl'
    simpa [upd, e] using this

theorem assigned (s : SigId) : Keeps pol cfg ty (Pooya.assigned s) (fun _ => True) := fun _ hw => ⟨hw, trivial⟩

theorem verify (d c : Bool) : Keeps pol cfg ty (debugVerify d c .debugVerify : M K Unit) (fun _ => True) :=
  Tri.verify (fun _ h _ => ⟨h, trivial⟩) (fun _ h => ⟨trivial, fun _ => h⟩)

theorem getScalar (s : SigId) (hs : ty s = .scalar) : Keeps pol cfg ty (Pooya.getScalar true s) (fun _ => True) := by
  refine bind (getv s) (fun v hv => ?_)
  rw [hs] at hv
  cases v with
  | scalar x => exact pure trivial
  | _ => exact absurd hv.1 (by simp [Val.hasTag])

theorem getBool (s : SigId) (hs : ty s = .bool) : Keeps pol cfg ty (Pooya.getBool true s) (fun _ => True) := by
  refine bind (getv s) (fun v hv => ?_)
  rw [hs] at hv
  cases v with
  | bool x => exact pure trivial
  | _ => exact absurd hv.1 (by simp [Val.hasTag])

theorem getAll (ss : List SigId) : Keeps pol cfg ty (Pooya.getAll true ss) (ReadAll ty ss) := by
  induction ss with
  | nil => exact pure .nil
  | cons s ss ih => exact bind (getv s) (fun v hv => bind ih (fun vs hvs => pure (.cons hv hvs)))

theorem setAll (ss : List SigId) (vs : List (Option (Val K))) (h : FitAll pol ty ss vs) : Keeps pol cfg ty (Pooya.setAll true ss vs) (fun _ => True) := by
  induction ss generalizing vs with
  | nil => exact pure trivial
  | cons s ss ih =>
    match vs with
    | [] => exact pure trivial
    | some v :: vs => exact bind (setv s h.1) (fun _ _ => ih vs h.2)
    | none :: vs => exact ih vs h

end Keeps

/-! ## Operations on values -/

theorem Val.hasTag_same {v : Val K} {a b : Ty} (h : v.hasTag a = true) (hs : a.Same b) : v.hasTag b = true := by
  cases v <;> cases a <;> cases b <;> simp_all [Val.hasTag, Ty.Same]

theorem Val.Fits.goes {v : Val K} {a b : Ty} (h : v.Fits a) (hs : a.Goes pol b) : v.Goes pol b := by
  obtain ⟨h1, h2⟩ := h
  obtain ⟨h3, h4⟩ := hs
  refine ⟨Val.hasTag_same h1 h3, fun e => ?_⟩
  have h4 := h4 e
  cases v <;> cases a <;> cases b <;> simp_all [Val.hasTag, Ty.Same, Val.sizeOk, Ty.size]

theorem Val.Fits.self {v : Val K} {a : Ty} (h : v.Fits a) : v.Goes pol a := ⟨h.1, fun _ => h.2⟩

theorem Ty.Same.float {a b : Ty} (h : a.Same b) : b.Float → a.Float := by
  cases a <;> cases b <;> simp_all [Ty.Same, Ty.Float]

theorem Val.lift2_fits {f : K → K → K} {a b : Val K} {T : Ty} (hf : T.Float) (ha : a.Fits T) (hb : b.Fits T) :
    Yields pol (fun r => r.Fits T) (Val.lift2 f a b) := by
  obtain ⟨ha1, ha2⟩ := ha
  obtain ⟨hb1, hb2⟩ := hb
  cases T <;> first | exact hf.elim | skip
  · cases a <;> simp [Val.hasTag] at ha1
    cases b <;> simp [Val.hasTag] at hb1
    exact ⟨rfl, rfl⟩
  · rename_i n
    cases a <;> simp [Val.hasTag] at ha1
    cases b <;> simp [Val.hasTag] at hb1
    rename_i xs ys
    simp only [Val.sizeOk, beq_iff_eq] at ha2 hb2
    have : xs.length = ys.length := ha2.trans hb2.symm
    simp only [Val.lift2, this, if_true]
    exact ⟨rfl, by simp [Val.sizeOk, ha2, hb2]⟩

theorem keeps_fold {op : K → K → K} {T : Ty} (hf : T.Float) (ins : List SigId) (hi : ∀ s ∈ ins, ty s = T) (acc : Val K) (ha : acc.Fits T) :
    Keeps pol cfg ty (foldIns true (Val.lift2 op) acc ins) (fun r => r.Fits T) := by
  induction ins generalizing acc with
  | nil => exact Keeps.pure ha
  | cons s ss ih =>
    refine Keeps.bind (Keeps.getv s) (fun v hv => ?_)
    rw [hi s (by simp)] at hv
    exact Keeps.bind (Keeps.liftE (Val.lift2_fits hf ha hv)) (fun r hr => ih (fun s hs => hi s (by simp [hs])) r hr)

theorem Val.zeroLike_goes {v : Val K} {T : Ty} (h : v.Goes pol T) : v.zeroLike.Goes pol T := by
  obtain ⟨h1, h2⟩ := h
  cases v <;> cases T <;> simp_all [Val.hasTag, Val.zeroLike, Val.Goes, Val.sizeOk]

/-! ## The blocks -/

/-- Numbers can be compared; needed for `Delay`. -/
def CanCompare (cfg : Config K) : Prop := cfg.Delays → ∀ a b : K, (a <=. b) = true ∨ (b <=. a) = true

theorem countBefore_pos {q t0 : K} {rest : List K} (h : ¬ (q <=. t0) = true) : countBefore q (t0 :: rest) ≠ 0 := by
  have : (q <=. t0) = false := by simpa using h
  simp [countBefore, this]

theorem countBefore_lt {q t0 : K} {rest : List K} (h : (q <=. rest.getLastD t0) = true) : countBefore q (t0 :: rest) < (t0 :: rest).length := by
  unfold countBefore
  have hmem : rest.getLastD t0 ∈ t0 :: rest := by
    cases rest with
    | nil => simp
    | cons a r => rw [List.getLastD_cons]; exact List.mem_cons_of_mem _ (by cases hr : r with | nil => simp | cons b r' => rw [List.getLastD_eq_getLast?, List.getLast?_eq_some_getLast (by simp)]; exact List.mem_cons_of_mem _ (by exact List.getLast_mem _))
  have hle := (List.takeWhile_prefix (p := fun v => !(q <=. v)) (l := t0 :: rest)).length_le
  refine lt_of_le_of_ne hle (fun e => ?_)
  have heq := (List.takeWhile_prefix (p := fun v => !(q <=. v)) (l := t0 :: rest)).eq_of_length e
  have := List.all_eq_true.1 (List.all_takeWhile (p := fun v => !(q <=. v)) (l := t0 :: rest)) _ (by rw [heq]; exact hmem)
  rw [h] at this
  cases this

theorem keeps_vecAt {α : Type} {l : List α} {i : Nat} (h : i < l.length) : Keeps pol cfg ty (vecAt l i : M K α) (fun a => a ∈ l) := by
  unfold vecAt
  rw [List.getElem?_eq_getElem h]
  exact Keeps.pure (List.getElem_mem h)

theorem keeps_delayAct {l : Leaf K} (hl : l ∈ cfg.model.leaves) (hT : l.Typed pol ty) (hc : CanCompare cfg) {ls : K} {x d i out : SigId}
    (hk : l.kind = .delay ls x d i out) (t : K) : Keeps pol cfg ty (delayAct true l.id t d i out) (fun _ => True) := by
  simp only [Leaf.Typed, hk] at hT
  obtain ⟨hfo, hxo, hd, hio⟩ := hT
  have hcmp := hc ⟨l, hl, by simp [Leaf.isDelay, hk]⟩
  refine Keeps.bind (Keeps.getMem hl) (fun m hm => ?_)
  simp only [Leaf.Members, hk] at hm
  obtain ⟨hxs, hlen⟩ := hm
  have hini : Keeps pol cfg ty (do let v ← getv true i; setv true out v) (fun _ => True) :=
    Keeps.bind (Keeps.getv i) (fun v hv => Keeps.setv out (Val.Fits.goes hv hio))
  cases hts : m.ts with
  | nil => exact hini
  | cons t0 rest =>
    rw [hts] at hlen
    refine Keeps.bind (Keeps.getScalar d hd) (fun dv _ => ?_)
    dsimp only
    by_cases h1 : ((t -. dv) <=. t0) = true
    · rw [if_pos h1]; exact hini
    · rw [if_neg h1]
      by_cases h2 : (rest.getLastD t0 <=. (t -. dv)) = true
      · rw [if_pos h2]
        cases hl' : m.xs.getLast? with
        | none =>
          rw [List.getLast?_eq_none_iff] at hl'
          rw [hl'] at hlen; cases hlen
        | some v => exact Keeps.setv out (Val.Fits.goes (hxs v (List.mem_of_getLast? hl')) hxo)
      · rw [if_neg h2]
        have h3 : ((t -. dv) <=. rest.getLastD t0) = true := (hcmp _ _).resolve_left h2
        have hp := countBefore_pos (rest := rest) h1
        have hlt := countBefore_lt h3
        rw [if_neg hp]
        refine Keeps.bind (keeps_vecAt (by omega)) (fun xk hxk => ?_)
        refine Keeps.bind (keeps_vecAt (by omega)) (fun xk1 hxk1 => ?_)
        refine Keeps.bind (keeps_vecAt (by omega)) (fun tk1 _ => ?_)
        refine Keeps.bind (keeps_vecAt (by omega)) (fun tk _ => ?_)
        refine Keeps.bind (Keeps.liftE (Val.lift2_fits (hxo.1.float hfo) (hxs _ hxk) (hxs _ hxk1))) (fun r hr => ?_)
        exact Keeps.setv out (Val.Fits.goes hr hxo)

theorem keeps_derivAct (h : cfg.WellTyped pol ty) {l : Leaf K} (hl : l ∈ cfg.model.leaves) {x out : SigId}
    (hk : l.kind = .derivative x out) (t : K) : Keeps pol cfg ty (derivAct true l.id t x out) (fun _ => True) := by
  have hT := h.leaves l hl
  simp only [Leaf.Typed, hk] at hT
  obtain ⟨hfo, hxo⟩ := hT
  refine Keeps.bind (Keeps.getMem hl) (fun m hm => ?_)
  have hm0 := hm
  simp only [Leaf.Members, hk] at hm
  obtain ⟨hv, hs, hx⟩ := hm
  cases hf : m.firstStep with
  | true =>
    simp only [if_true]
    refine Keeps.bind (Keeps.setMem h hl (by simp only [Leaf.Members, hk]; exact ⟨hv, fun e => by simp [hf] at e, hx⟩)) (fun _ _ => ?_)
    refine Keeps.bind (Keeps.getv x) (fun v hv' => ?_)
    refine Keeps.bind (Keeps.setMem h hl ?_) (fun _ _ => Keeps.setv out hv)
    simp only [Leaf.Members, hk]
    exact ⟨hv, fun _ => ⟨rfl, rfl⟩, fun u e => by cases e; exact hv'⟩
  | false =>
    simp only [Bool.false_eq_true, if_false]
    obtain ⟨h1, h2⟩ := hs hf
    cases ht : m.t with
    | none => rw [ht] at h1; cases h1
    | some t0 =>
      dsimp only
      split
      · exact Keeps.setv out hv
      · refine Keeps.bind (Keeps.getv x) (fun v hv' => ?_)
        cases hmx : m.x with
        | none => rw [hmx] at h2; cases h2
        | some x0 =>
          exact Keeps.bind (Keeps.liftE (Val.lift2_fits (hxo.1.float hfo) hv' (hx _ hmx))) (fun r hr => Keeps.setv out (Val.Fits.goes hr hxo))

theorem keeps_act (h : cfg.WellTyped pol ty) (hc : CanCompare cfg) {l : Leaf K} (hl : l ∈ cfg.model.leaves) (t : K) :
    Keeps pol cfg ty (l.act cfg.dbg t) (fun _ => True) := by
  have hT := h.leaves l hl
  rw [h.dbg]
  refine Keeps.bind (Keeps.emit _) (fun _ _ => ?_)
  unfold Leaf.actBody
  cases hk : l.kind with
  | const v out => simp only [Leaf.Typed, hk] at hT; exact Keeps.setv out hT
  | source f out => simp only [Leaf.Typed, hk] at hT; exact Keeps.bind (Keeps.liftE (hT t)) (fun v hv => Keeps.setv out hv)
  | sources f outs =>
    simp only [Leaf.Typed, hk] at hT
    exact Keeps.bind (Keeps.setAll _ _ (hT t).1) (fun _ _ => Keeps.throwOpt (hT t).2)
  | gain k x out =>
    refine Keeps.bind (Keeps.getv x) (fun v hv => ?_)
    simp only [Leaf.Typed, hk] at hT
    refine Keeps.bind (Keeps.liftE (Q := fun r => r.Goes pol (ty out)) ?_) (fun r hr => Keeps.setv out hr)
    cases k with
    | scalar k =>
      dsimp only at hT
      obtain ⟨h1, h2⟩ := hT
      have hg := Val.Fits.goes hv h2
      have hf := hv.1
      cases hx : ty x <;> rw [hx] at h1 hf h2 <;> cases v <;> cases ho : ty out <;> simp_all [Ty.Float, Val.hasTag, Val.gain, Yields, Val.Goes, Val.sizeOk]
    | int k =>
      dsimp only at hT
      obtain ⟨h1, h2, h3⟩ := hT
      rw [h2] at hv
      cases v with
      | int a =>
        simp only [Val.gain]
        split
        · rw [h3]; exact ⟨rfl, fun _ => rfl⟩
        · exact ⟨h1, rfl⟩
      | _ => exact absurd hv.1 (by simp [Val.hasTag])
    | _ => exact hT.elim
  | add i ins out =>
    simp only [Leaf.Typed, hk] at hT
    obtain ⟨hf, T, h1, h2, h3⟩ := hT
    exact Keeps.bind (keeps_fold (h2.1.float hf) ins h3 i h1) (fun r hr => Keeps.setv out (Val.Fits.goes hr h2))
  | multiply i ins out =>
    simp only [Leaf.Typed, hk] at hT
    obtain ⟨hf, T, h1, h2, h3⟩ := hT
    exact Keeps.bind (keeps_fold (h2.1.float hf) ins h3 i h1) (fun r hr => Keeps.setv out (Val.Fits.goes hr h2))
  | subtract x1 x2 out =>
    simp only [Leaf.Typed, hk] at hT
    obtain ⟨hf, h1, h2⟩ := hT
    refine Keeps.bind (Keeps.getv x1) (fun a ha => Keeps.bind (Keeps.getv x2) (fun b hb => ?_))
    exact Keeps.bind (Keeps.liftE (Val.lift2_fits (h2.1.float hf) ha (h1 ▸ hb))) (fun r hr => Keeps.setv out (Val.Fits.goes hr h2))
  | divide x1 x2 out =>
    simp only [Leaf.Typed, hk] at hT
    obtain ⟨hf, h1, h2⟩ := hT
    refine Keeps.bind (Keeps.getv x1) (fun a ha => Keeps.bind (Keeps.getv x2) (fun b hb => ?_))
    exact Keeps.bind (Keeps.liftE (Val.lift2_fits (h2.1.float hf) ha (h1 ▸ hb))) (fun r hr => Keeps.setv out (Val.Fits.goes hr h2))
  | pipe x out =>
    simp only [Leaf.Typed, hk] at hT
    exact Keeps.bind (Keeps.getv x) (fun v hv => Keeps.setv out (Val.Fits.goes hv hT))
  | memory x out =>
    refine Keeps.bind (Keeps.getMem hl) (fun m hm => ?_)
    simp only [Leaf.Members, hk] at hm
    exact Keeps.setv out hm
  | delay ls x d i out => exact keeps_delayAct hl hT hc hk t
  | derivative x out => exact keeps_derivAct h hl hk t
  | integrator x out => exact Keeps.pure trivial
  | trigInt x tr out =>
    simp only [Leaf.Typed, hk] at hT
    refine Keeps.bind (Keeps.getMem hl) (fun m hm => ?_)
    split
    · exact Keeps.pure trivial
    · refine Keeps.bind (Keeps.getBool tr hT) (fun b _ => Keeps.setMem h hl ?_)
      simp only [Leaf.Members, hk] at hm ⊢
      exact hm
  | siso f x out =>
    simp only [Leaf.Typed, hk] at hT
    exact Keeps.bind (Keeps.getv x) (fun v hv => Keeps.bind (Keeps.liftE (hT t v hv)) (fun r hr => Keeps.setv out hr))
  | so f reads out =>
    simp only [Leaf.Typed, hk] at hT
    exact Keeps.bind (Keeps.getAll reads) (fun v hv => Keeps.bind (Keeps.liftE (hT t v hv)) (fun r hr => Keeps.setv out hr))
  | func f reads outs =>
    simp only [Leaf.Typed, hk] at hT
    exact Keeps.bind (Keeps.getAll reads) (fun v hv => Keeps.bind (Keeps.setAll _ _ (hT t v hv).1) (fun _ _ => Keeps.throwOpt (hT t v hv).2))
  | builder => exact Keeps.pure trivial
  | custom c =>
    simp only [Leaf.Typed, hk] at hT
    refine Keeps.bind (Keeps.getMem hl) (fun m hm => Keeps.bind (Keeps.getAll _) (fun vs hvs => ?_))
    refine Keeps.bind (Keeps.liftE (hT.2.1 t m.user vs hvs)) (fun r hr => Keeps.bind (Keeps.setMem h hl (by simp [Leaf.Members, hk])) (fun _ _ => ?_))
    exact Keeps.setAll _ _ hr

theorem keeps_integPre {l : Leaf K} (hl : l ∈ cfg.model.leaves) {out : SigId} (hm : ∀ m, l.Members pol ty m → m.value.Goes pol (ty out)) :
    Keeps pol cfg ty (integPre true l.id out) (fun _ => True) :=
  Keeps.bind (Keeps.assigned out) (fun _ _ => Keeps.bind (Keeps.verify _ _) (fun _ _ => Keeps.bind (Keeps.getMem hl) (fun m h => Keeps.setv out (hm m h))))

theorem keeps_pre (h : cfg.WellTyped pol ty) {l : Leaf K} (hl : l ∈ cfg.model.leaves) (t : K) :
    Keeps pol cfg ty (l.pre cfg.dbg t) (fun _ => True) := by
  have hT := h.leaves l hl
  rw [h.dbg]
  refine Keeps.bind (Keeps.emit _) (fun _ _ => ?_)
  unfold Leaf.preBody
  cases hk : l.kind with
  | integrator x out => exact keeps_integPre hl (fun m hm => by simpa only [Leaf.Members, hk] using hm)
  | trigInt x tr out =>
    have hp : Keeps pol cfg ty (integPre true l.id out) (fun _ => True) := keeps_integPre hl (fun m hm => by simpa only [Leaf.Members, hk] using hm)
    refine Keeps.bind (Keeps.getMem hl) (fun m hm => ?_)
    split
    · refine Keeps.bind (Keeps.setMem h hl ?_) (fun _ _ => hp)
      simp only [Leaf.Members, hk] at hm ⊢
      exact Val.zeroLike_goes hm
    · exact hp
  | custom c =>
    simp only [Leaf.Typed, hk] at hT
    refine Keeps.bind (Keeps.getMem hl) (fun m hm => ?_)
    refine Keeps.bind (Keeps.liftE (hT.1 t m.user)) (fun r hr => Keeps.bind (Keeps.setMem h hl (by simp [Leaf.Members, hk])) (fun _ _ => ?_))
    exact Keeps.setAll _ _ hr
  | _ => exact Keeps.pure trivial

theorem keeps_integPost (h : cfg.WellTyped pol ty) {l : Leaf K} (hl : l ∈ cfg.model.leaves) {out : SigId}
    (hm : ∀ (m : Mem K) v, v.Goes pol (ty out) → l.Members pol ty { m with value := v }) : Keeps pol cfg ty (integPost true l.id out) (fun _ => True) :=
  Keeps.bind (Keeps.assigned out) (fun _ _ => Keeps.bind (Keeps.verify _ _) (fun _ _ => Keeps.bind (Keeps.getv out) (fun v hv =>
    Keeps.bind (Keeps.getMem hl) (fun m _ => Keeps.setMem h hl (hm m v hv.self)))))

theorem keeps_delayPost (h : cfg.WellTyped pol ty) {l : Leaf K} (hl : l ∈ cfg.model.leaves) {ls : K} {x d i out : SigId}
    (hk : l.kind = .delay ls x d i out) (t : K) : Keeps pol cfg ty (delayPost true l.id t ls x) (fun _ => True) := by
  have hdl : cfg.Delays := ⟨l, hl, by simp [Leaf.isDelay, hk]⟩
  refine Keeps.bind (Keeps.getMem hl) (fun m hm => ?_)
  simp only [Leaf.Members, hk] at hm
  obtain ⟨hxs, hlen⟩ := hm
  have hcnt : countBefore (t -. ls) m.ts ≤ m.xs.length := by
    rw [← hlen]; exact (List.takeWhile_prefix (p := fun v => !((t -. ls) <=. v)) (l := m.ts)).length_le
  dsimp only
  rw [if_neg (by omega)]
  have hdrop : ∀ v ∈ m.xs.drop (countBefore (t -. ls) m.ts), v.Fits (ty x) := fun v hv => hxs v (List.mem_of_mem_drop hv)
  refine Keeps.bind (Keeps.setMem h hl (by simp only [Leaf.Members, hk]; exact ⟨hdrop, by simp [hlen]⟩)) (fun _ _ => ?_)
  refine Keeps.bind (Keeps.verify _ _) (fun _ _ => ?_)
  intro w hw
  rw [bind_apply]
  have hg := Keeps.getv (pol := pol) (cfg := cfg) (ty := ty) x w hw
  have e0 : setMem l.id { m with ts := m.ts.drop (countBefore (t -. ls) m.ts) ++ [t], xs := m.xs.drop (countBefore (t -. ls) m.ts) } w =
      .ok () { w with mem := upd w.mem l.id { m with ts := m.ts.drop (countBefore (t -. ls) m.ts) ++ [t], xs := m.xs.drop (countBefore (t -. ls) m.ts) } } := rfl
  rw [e0]
  dsimp only
  rw [bind_apply]
  unfold getv at hg ⊢
  dsimp only at hg ⊢
  cases ha : (w.sig x).assigned with
  | false => simp only [Bool.not_false, Bool.and_self, if_true]; exact ⟨trivial, fun e => (e hdl).elim⟩
  | true =>
    simp only [ha, Bool.not_true, Bool.and_false, Bool.false_eq_true, if_false] at hg ⊢
    cases hv : (w.sig x).value with
    | none => rw [hv] at hg; exact ⟨hg.1, fun e => (e hdl).elim⟩
    | some v =>
      rw [hv] at hg
      have := Keeps.setMem (pol := pol) h hl (m := { m with ts := m.ts.drop (countBefore (t -. ls) m.ts) ++ [t], xs := m.xs.drop (countBefore (t -. ls) m.ts) ++ [v] })
        (by
          simp only [Leaf.Members, hk]
          refine ⟨fun u hu => ?_, by simp [hlen]⟩
          rcases List.mem_append.1 hu with h1 | h1
          · exact hdrop u h1
          · simp only [List.mem_singleton] at h1; exact h1 ▸ hg.2) w hw
      have e1 : ∀ (a b : Mem K), upd (upd w.mem l.id a) l.id b = upd w.mem l.id b := by
        intro a b; funext j; simp only [upd]; split <;> rfl
      simp only [setMem, e1] at this ⊢
      exact this

theorem keeps_post (h : cfg.WellTyped pol ty) {l : Leaf K} (hl : l ∈ cfg.model.leaves) (t : K) :
    Keeps pol cfg ty (l.post cfg.dbg t) (fun _ => True) := by
  have hT := h.leaves l hl
  rw [h.dbg]
  refine Keeps.bind (Keeps.emit _) (fun _ _ => ?_)
  unfold Leaf.postBody
  cases hk : l.kind with
  | memory x out =>
    simp only [Leaf.Typed, hk] at hT
    refine Keeps.bind (Keeps.getv x) (fun v hv => Keeps.bind (Keeps.getMem hl) (fun m _ => Keeps.setMem h hl ?_))
    simp only [Leaf.Members, hk]
    exact Val.Fits.goes hv hT
  | delay ls x d i out => exact keeps_delayPost h hl hk t
  | derivative x out =>
    simp only [Leaf.Typed, hk] at hT
    refine Keeps.bind (Keeps.getMem hl) (fun m hm => ?_)
    simp only [Leaf.Members, hk] at hm
    refine Keeps.bind (Keeps.setMem h hl ?_) (fun _ _ => Keeps.bind (Keeps.getv x) (fun v hv => Keeps.setMem h hl ?_))
    · simp only [Leaf.Members, hk]; exact ⟨hm.1, fun e => ⟨rfl, (hm.2.1 e).2⟩, hm.2.2⟩
    · simp only [Leaf.Members, hk]; exact ⟨Val.Fits.goes hv hT.2, fun _ => ⟨rfl, rfl⟩, fun u e => by cases e; exact hv⟩
  | integrator x out => exact keeps_integPost h hl (fun m v hv => by simpa only [Leaf.Members, hk] using hv)
  | trigInt x tr out => exact keeps_integPost h hl (fun m v hv => by simpa only [Leaf.Members, hk] using hv)
  | custom c =>
    simp only [Leaf.Typed, hk] at hT
    refine Keeps.bind (Keeps.getMem hl) (fun m hm => Keeps.bind (Keeps.getAll _) (fun vs hvs => ?_))
    exact Keeps.bind (Keeps.liftE (hT.2.2 t m.user vs hvs)) (fun r hr => Keeps.setMem h hl (by simp [Leaf.Members, hk]))
  | _ => exact Keeps.pure trivial

end Pooya
