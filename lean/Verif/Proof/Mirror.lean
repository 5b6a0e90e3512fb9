import Verif.Spec.Mirror
import Verif.Props.C62
import Verif.Props.C12

/-! Calls that follow pointers from block to block and calls on the tree of blocks have the same effect (for C65). -/

namespace Pooya.C65

open Pooya C11 C12

set_option linter.unusedSectionVars false

variable {K : Type} [Arith K] {σ α β : Type} {dbg : Bool} {h : Heap} {al : BlkId → Bool}

/-- What is known of the blocks: all exist and have names. -/
structure Known (h : Heap) (al : BlkId → Bool) : Prop where
  alive : ∀ b, b < h.next → al b = true
  kids : ∀ b c, c ∈ h.kids b → c < h.next
  name : ∀ b, b < h.next → ∀ n, h.next + 1 ≤ n → ∃ v, fullName h n b = some v
  above : ∀ b, b < h.next → ∀ x, h.Above b x → al x = true

theorem fullName_mono {n : Nat} : ∀ {b : BlkId} {v : ValidName}, fullName h n b = some v → fullName h (n + 1) b = some v := by
  induction n with
  | zero => intro b v e; cases e
  | succ n ih =>
    intro b v e
    unfold fullName at e ⊢
    cases hp : h.parent b with
    | none => rw [hp] at e; exact e
    | some p =>
      rw [hp] at e
      simp only [Option.map_eq_some_iff] at e ⊢
      obtain ⟨u, h1, h2⟩ := e
      exact ⟨u, ih h1, h2⟩

theorem fullName_le {n m : Nat} (hm : n ≤ m) {b : BlkId} {v : ValidName} (e : fullName h n b = some v) : fullName h m b = some v := by
  induction hm with
  | refl => exact e
  | step _ ih => exact fullName_mono ih

theorem known {s : Store σ} (hr : s.Reached dbg false) (hA : Acyclic s.heap) : Known s.heap s.alive := by
  have hi := C62.inv hr
  obtain ⟨hC, hF⟩ := reachable_inv hi.heap
  refine ⟨hi.all rfl, fun b c hc => ?_, fun b hb n hn => ?_, fun b hb x hx => ?_⟩
  · rcases Nat.lt_or_ge c s.heap.next with h | h
    · exact h
    · have := (hF c h).1; rw [hi.kids b c hc] at this; cases this
  · obtain ⟨v, e⟩ := C12_full_name_partial hi.heap hA hb
    exact ⟨v, fullName_le hn e⟩
  · induction hx with
    | self => exact hi.all rfl _ hb
    | up hp _ ih => exact ih (parent_lt hC hF hp)

theorem name_run {n : Nat} : ∀ {b : BlkId} {v : ValidName} {s : Store σ}, fullName s.heap n b = some v → (∀ x, s.heap.Above b x → s.alive x = true) → fullNameP n b s = .ok v s := by
  induction n with
  | zero => intro b v s e; cases e
  | succ n ih =>
    intro b v s e ha
    unfold fullNameP
    rw [lm_bind, C62.deref_run (ha b (.self b))]
    simp only
    unfold fullName at e
    cases hp : (s.heap.node b).parent with
    | none => rw [show s.heap.parent b = none from hp] at e; cases e; rfl
    | some p =>
      rw [show s.heap.parent b = some p from hp] at e
      simp only [Option.map_eq_some_iff] at e
      obtain ⟨u, h1, h2⟩ := e
      simp only
      rw [lm_bind, ih h1 fun x hx => ha x (.up hp hx)]
      subst h2; rfl

/-- `x` mirrors `y` in every state with the given blocks. -/
def MirrorsAll (h : Heap) (al : BlkId → Bool) (x : LM (World K) α) (y : M K α) : Prop := ∀ s, s.heap = h → s.alive = al → Mirrors s (x s) (y (worldOf s))

theorem m_bind' (x : M K α) (f : α → M K β) (w : World K) : (x >>= f) w = match x w with | .ok a w' => f a w' | .error e w' => .error e w' := by
  show EStateM.bind x f w = _
  unfold EStateM.bind
  cases x w <;> rfl

theorem mirrors_bind {x : LM (World K) α} {y : M K α} {f : α → LM (World K) β} {g : α → M K β} (hx : MirrorsAll h al x y) (hf : ∀ a, MirrorsAll h al (f a) (g a)) :
    MirrorsAll h al (x >>= f) (y >>= g) := by
  intro s h1 h2
  rw [lm_bind, m_bind']
  have k := hx s h1 h2
  revert k
  cases x s with
  | ok a s' =>
    cases y (worldOf s) with
    | ok a' w =>
      rintro ⟨rfl, rfl, k1, k2, k3⟩
      have j := hf a s' (k1.trans h1) (k2.trans h2)
      simp only
      revert j
      cases f a s' with
      | ok b s2 =>
        cases g a (worldOf s') with
        | ok b' w2 => rintro ⟨j1, j2, j3, j4, j5⟩; exact ⟨j1, j2, j3.trans k1, j4.trans k2, j5.trans k3⟩
        | error e w2 => exact fun j => j
      | error e s2 =>
        cases g a (worldOf s') with
        | ok b' w2 => exact fun j => j
        | error e w2 => rintro ⟨j1, j2, j3, j4, j5⟩; exact ⟨j1, j2, j3.trans k1, j4.trans k2, j5.trans k3⟩
    | error e w => exact fun k => k.elim
  | error e s' =>
    cases y (worldOf s) with
    | ok a' w => exact fun k => k.elim
    | error e' w => exact fun k => k

theorem mirrors_pure (a : α) : MirrorsAll (K := K) h al (pure a) (pure a) := fun _ _ _ => ⟨rfl, rfl, rfl, rfl, rfl⟩

/-- A step of the call through pointers that the other call does not have. -/
theorem mirrors_skip {x : LM (World K) α} {f : α → LM (World K) β} {y : M K β} {Q : α → Prop} (hx : ∀ s, s.heap = h → s.alive = al → ∃ a, x s = .ok a s ∧ Q a)
    (hf : ∀ a, Q a → MirrorsAll h al (f a) y) : MirrorsAll h al (x >>= f) y := by
  intro s h1 h2
  obtain ⟨a, e, hq⟩ := hx s h1 h2
  rw [lm_bind, e]
  exact hf a hq s h1 h2

theorem mirrors_deref {b : BlkId} {f : Node → LM (World K) β} {y : M K β} (hb : al b = true) (hf : MirrorsAll h al (f (h.node b)) y) : MirrorsAll h al (deref b >>= f) y :=
  mirrors_skip (Q := fun nd => nd = h.node b) (fun s h1 h2 => ⟨_, C62.deref_run (by rw [h2]; exact hb), by rw [h1]⟩) fun _ e => e ▸ hf

theorem mirrors_done {b : BlkId} (hb : al b = true) : MirrorsAll (K := K) h al (processedP b) (getDone b) := by
  intro s h1 h2
  unfold processedP
  rw [lm_bind, C62.deref_run (by rw [h2]; exact hb)]
  exact ⟨rfl, rfl, rfl, rfl, rfl⟩

theorem mirrors_set (b : BlkId) (v : Bool) :
    MirrorsAll (K := K) h al (modify fun s : Store (World K) => { s with processed := upd s.processed b v }) (setDone b v) := fun _ _ _ => ⟨rfl, rfl, rfl, rfl, rfl⟩

theorem mirrors_world (y : M K α) : MirrorsAll h al (onWorld y) y := by
  intro s _ _
  unfold onWorld
  cases y (worldOf s) with
  | ok a w => exact ⟨rfl, rfl, rfl, rfl, rfl⟩
  | error e w => exact ⟨rfl, rfl, rfl, rfl, rfl⟩

theorem mirrors_traced {file : String} {line : Int} {n : Nat} {b : BlkId} {x : LM (World K) α} {y : M K α} (hk : Known h al) (hb : b < h.next) (hn : h.next + 1 ≤ n)
    (hx : MirrorsAll h al x y) : MirrorsAll h al (traced dbg file line (blockMsg n b) x) y := by
  intro s h1 h2
  unfold traced
  cases dbg with
  | false => exact hx s h1 h2
  | true =>
    obtain ⟨v, hv⟩ := hk.name b hb n hn
    simp only [if_true]
    have e : blockMsg n b { s with trace := {} :: s.trace } = .ok (str "block: " ++ v.name) { s with trace := {} :: s.trace } := by
      unfold blockMsg
      rw [lm_bind, name_run (v := v) (by rw [← h1] at hv; exact hv) (fun x hx => by
        show s.alive x = true
        rw [h2]; exact hk.above b hb x (by rw [← h1]; exact hx))]
      rfl
    rw [lm_bind, e]
    simp only
    rw [lm_bind]
    unfold traceUpdate
    simp only
    have k := hx { s with trace := { file := file, line := line, msg := if str "block: " ++ v.name ≠ [] then str "block: " ++ v.name else [] } :: s.trace } h1 h2
    revert k
    cases x { s with trace := { file := file, line := line, msg := if str "block: " ++ v.name ≠ [] then str "block: " ++ v.name else [] } :: s.trace } with
    | ok a s' =>
      show Mirrors _ _ (y (worldOf s)) → _
      cases y (worldOf s) with
      | ok a' w => rintro ⟨k1, k2, k3, k4, k5⟩; simp only [tracePop, k5]; exact ⟨k1, k2, k3, k4, rfl⟩
      | error e w => exact fun k => k.elim
    | error e s' =>
      show Mirrors _ _ (y (worldOf s)) → _
      cases y (worldOf s) with
      | ok a' w => exact fun k => k.elim
      | error e w => rintro ⟨k1, k2, k3, k4, k5⟩; simp only [tracePop, k5]; exact ⟨k1, k2, k3, k4, rfl⟩

variable {leafOf : BlkId → Leaf K} {linksOf : BlkId → List (SigId × Flags)}

/-- The two cases of a hierarchy. -/
theorem unfold_cases {m : Nat} {b : BlkId} {B : Block K} (e : unfold h leafOf linksOf m b = some B) : ∃ k, m = k + 1 ∧
    (((h.node b).isSub = false ∧ B = .leaf (leafAt leafOf b)) ∨
    ((h.node b).isSub = true ∧ ∃ kids, B = .sub b (linksOf b) kids ∧ List.Forall₂ (fun c C => unfold h leafOf linksOf k c = some C) (h.kids b) kids)) := by
  cases m with
  | zero => cases e
  | succ k =>
    refine ⟨k, rfl, ?_⟩
    unfold unfold at e
    cases hs : (h.node b).isSub with
    | false => rw [hs] at e; simp at e; exact .inl ⟨rfl, e.symm⟩
    | true =>
      rw [hs] at e
      simp at e
      obtain ⟨kids, h1, rfl⟩ := e
      exact .inr ⟨rfl, kids, rfl, mapM_some _ _ _ h1⟩

/-- A loop over the children without early exit. -/
theorem mirrors_loop {f : BlkId → LM (World K) Unit} {g : Block K → M K Unit} {gL : List (Block K) → M K Unit} (hnil : gL [] = pure ())
    (hcons : ∀ C Cs, gL (C :: Cs) = do g C; gL Cs) {l : List BlkId} {Cs : List (Block K)} {P : BlkId → Block K → Prop} (hl : List.Forall₂ P l Cs)
    (hf : ∀ c C, c ∈ l → P c C → MirrorsAll h al (f c) (g C)) : MirrorsAll h al (do let _ ← forKids (fun c => do f c; pure true) l; pure ()) (gL Cs) := by
  induction hl with
  | nil => rw [hnil]; exact mirrors_pure ()
  | @cons c C l Cs hc _ ih =>
    rw [hcons]
    intro s h1 h2
    have key : ∀ s, (do let _ ← forKids (fun c => do f c; pure true) (c :: l); pure () : LM (World K) Unit) s =
        (do f c; let _ ← forKids (fun c => do f c; pure true) l; pure () : LM (World K) Unit) s := by
      intro s
      rw [show forKids (fun c => do f c; pure true) (c :: l) = (do let r ← (do f c; pure true); if r then forKids (fun c => do f c; pure true) l else pure false : LM (World K) Bool) from rfl]
      simp only [lm_bind]
      cases f c s <;> rfl
    rw [key]
    exact mirrors_bind (hf c C (.head _) hc) (fun _ => ih fun d D hd => hf d D (.tail _ hd)) s h1 h2

theorem mark_mirrors (hk : Known h al) {m : Nat} : ∀ {n : Nat} {b : BlkId} {B : Block K}, b < h.next → unfold h leafOf linksOf m b = some B →
    m + h.next + 1 ≤ n → MirrorsAll h al (markP dbg (leafFlag leafOf) n b) B.mark := by
  induction m with
  | zero => intro n b B _ e; cases e
  | succ m ih =>
    intro n b B hb e hn
    obtain ⟨k, hk', hc⟩ := unfold_cases e
    cases hk'
    obtain ⟨n, rfl⟩ : ∃ n', n = n' + 1 := ⟨n - 1, by omega⟩
    unfold markP
    refine mirrors_deref (hk.alive b hb) ?_
    rcases hc with ⟨hs, rfl⟩ | ⟨hs, kids, rfl, hks⟩
    · rw [hs]
      simp only [Bool.false_eq_true, if_false, Block.mark]
      exact mirrors_set b (leafFlag leafOf b)
    · rw [hs]
      simp only [if_true, Block.mark]
      refine mirrors_traced hk hb (by omega) (mirrors_deref (hk.alive b hb) (mirrors_bind (mirrors_set b false) fun _ => ?_))
      refine mirrors_loop (g := Block.mark) (gL := markL) rfl (fun _ _ => rfl) hks fun c C hc hC => ?_
      exact ih (hk.kids b c hc) hC (by omega)

theorem step_mirrors (hk : Known h al) {line : Int} {g : Block K → M K Unit} {gL : List (Block K) → M K Unit} {gl : Leaf K → M K Unit} (hleaf : ∀ l, g (.leaf l) = gl l)
    (hsub : ∀ i ls kids, g (.sub i ls kids) = gL kids) (hnil : gL [] = pure ()) (hcons : ∀ C Cs, gL (C :: Cs) = do g C; gL Cs) {m : Nat} :
    ∀ {n : Nat} {b : BlkId} {B : Block K}, b < h.next → unfold h leafOf linksOf m b = some B → m + h.next + 1 ≤ n →
      MirrorsAll h al (stepP dbg line (fun b => onWorld (gl (leafAt leafOf b))) n b) (g B) := by
  induction m with
  | zero => intro n b B _ e; cases e
  | succ m ih =>
    intro n b B hb e hn
    obtain ⟨k, hk', hc⟩ := unfold_cases e
    cases hk'
    obtain ⟨n, rfl⟩ : ∃ n', n = n' + 1 := ⟨n - 1, by omega⟩
    unfold stepP
    refine mirrors_deref (hk.alive b hb) ?_
    rcases hc with ⟨hs, rfl⟩ | ⟨hs, kids, rfl, hks⟩
    · rw [hs, hleaf]
      exact mirrors_world _
    · rw [hs, hsub]
      simp only [if_true]
      refine mirrors_traced hk hb (by omega) (mirrors_deref (hk.alive b hb) ?_)
      refine mirrors_loop (g := g) (gL := gL) hnil hcons hks fun c C hc hC => ?_
      exact ih (hk.kids b c hc) hC (by omega)

theorem leaf_mirrors (hk : Known h al) {b : BlkId} (hb : b < h.next) {t : K} : MirrorsAll h al
    (do let d ← processedP b
        if d then pure 0
        else do
          let r ← leafAct dbg t leafOf b
          if !r then pure 0
          else do
            modify fun s => { s with processed := upd s.processed b true }
            pure 1 : LM (World K) Nat) ((leafAt leafOf b).process dbg t) := by
  unfold Leaf.process
  refine mirrors_bind (mirrors_done (hk.alive b hb)) fun d => ?_
  cases d with
  | true =>
    intro s _ _
    exact ⟨rfl, rfl, rfl, rfl, rfl⟩
  | false =>
    intro s h1 h2
    simp only [Bool.false_eq_true, if_false, Bool.false_or]
    rw [lm_bind, m_bind']
    show Mirrors s _ ((if (!(leafAt leafOf b).ready (worldOf s)) = true then _ else _ : M K Nat) (worldOf s))
    unfold leafAct onWorld
    rw [m_bind']
    simp only [show (get : M K (World K)) (worldOf s) = .ok (worldOf s) (worldOf s) from rfl]
    cases hr : (leafAt leafOf b).ready (worldOf s) with
    | false => exact ⟨rfl, rfl, rfl, rfl, rfl⟩
    | true =>
      simp only [Bool.not_true, Bool.false_eq_true, if_false]
      rw [m_bind', m_bind']
      cases (leafAt leafOf b).act dbg t (worldOf s) with
      | ok a w => exact ⟨rfl, rfl, rfl, rfl, rfl⟩
      | error e w => exact ⟨rfl, rfl, rfl, rfl, rfl⟩

theorem process_mirrors (hk : Known h al) {t : K} {m : Nat} : ∀ {n : Nat} {b : BlkId} {B : Block K}, b < h.next → unfold h leafOf linksOf m b = some B →
    m + h.next + 1 ≤ n → MirrorsAll h al (processP dbg (leafAct dbg t leafOf) n b) (B.process dbg t) := by
  induction m with
  | zero => intro n b B _ e; cases e
  | succ m ih =>
    intro n b B hb e hn
    obtain ⟨k, hk', hc⟩ := unfold_cases e
    cases hk'
    obtain ⟨n, rfl⟩ : ∃ n', n = n' + 1 := ⟨n - 1, by omega⟩
    unfold processP
    refine mirrors_deref (hk.alive b hb) ?_
    rcases hc with ⟨hs, rfl⟩ | ⟨hs, kids, rfl, hks⟩
    · rw [hs]
      exact mirrors_traced hk hb (by omega) (leaf_mirrors hk hb)
    · rw [hs]
      clear e
      simp only [if_true, Block.process]
      refine mirrors_traced hk hb (by omega) (mirrors_bind (mirrors_done (hk.alive b hb)) fun d => ?_)
      cases d with
      | true => exact mirrors_pure 0
      | false =>
        refine mirrors_bind (mirrors_set b true) fun _ => mirrors_deref (hk.alive b hb) ?_
        have hkid : ∀ c ∈ h.kids b, c < h.next := fun c hc => hk.kids b c hc
        show MirrorsAll h al (processKids b (processP dbg (leafAct dbg t leafOf) n) (h.kids b)) (processL dbg t b kids)
        revert hkid hks
        generalize h.kids b = ids
        intro hks
        induction hks with
        | nil => intro _; exact mirrors_pure 0
        | @cons c C l Cs hc _ ihl =>
          intro hkid
          unfold processKids processL
          have hcn := hkid c (.head _)
          refine mirrors_bind (ih hcn hc (by omega)) fun k => ?_
          rw [unfold_id leafOf linksOf hc]
          refine mirrors_bind (mirrors_done (hk.alive c hcn)) fun d => ?_
          have hrest := ihl fun d hd => hkid d (.tail _ hd)
          cases d with
          | true =>
            intro s h1 h2
            exact mirrors_bind hrest (fun _ => mirrors_pure _) s h1 h2
          | false => exact mirrors_bind (mirrors_set b false) fun _ => mirrors_bind hrest fun _ => mirrors_pure _

theorem plain_mirrors (hk : Known h al) {t : K} {m n : Nat} {b : BlkId} {B : Block K} (hb : b < h.next) (e : unfold h leafOf linksOf m b = some B)
    (hn : m + h.next + 1 ≤ n) (k : Nat) : MirrorsAll h al (plainLoopP (processP dbg (leafAct dbg t leafOf) n b) k) (plainLoop dbg t B k) := by
  induction k with
  | zero => exact fun _ _ _ => ⟨rfl, rfl, rfl, rfl, rfl⟩
  | succ k ih =>
    unfold plainLoopP plainLoop
    refine mirrors_bind (process_mirrors hk hb e hn) fun r => ?_
    split
    · exact mirrors_pure ()
    · exact ih

/-- `x` has the given effect on the rest of the program and no other. -/
def Acts (h : Heap) (al : BlkId → Bool) (x : LM σ Bool) (F : σ → Bool × σ) : Prop := ∀ s, s.heap = h → s.alive = al → x s = .ok (F s.ext).1 { s with ext := (F s.ext).2 }

theorem acts_traced {file : String} {line : Int} {n : Nat} {b : BlkId} {x : LM σ Bool} {F : σ → Bool × σ} (hk : Known h al) (hb : b < h.next) (hn : h.next + 1 ≤ n)
    (hx : Acts h al x F) : Acts h al (traced dbg file line (blockMsg n b) x) F := by
  intro s h1 h2
  unfold traced
  cases dbg with
  | false => exact hx s h1 h2
  | true =>
    obtain ⟨v, hv⟩ := hk.name b hb n hn
    simp only [if_true]
    have e : blockMsg n b { s with trace := {} :: s.trace } = .ok (str "block: " ++ v.name) { s with trace := {} :: s.trace } := by
      unfold blockMsg
      rw [lm_bind, name_run (v := v) (by rw [← h1] at hv; exact hv) (fun x hx => by
        show s.alive x = true
        rw [h2]; exact hk.above b hb x (by rw [← h1]; exact hx))]
      rfl
    rw [lm_bind, e]
    simp only
    rw [lm_bind]
    unfold traceUpdate
    simp only
    have k := hx { s with trace := { file := file, line := line, msg := if str "block: " ++ v.name ≠ [] then str "block: " ++ v.name else [] } :: s.trace } h1 h2
    rw [k]
    rfl

theorem acts_bind {x : LM σ Bool} {F : σ → Bool × σ} {f : Bool → LM σ Bool} {G : Bool → σ → Bool × σ} (hx : Acts h al x F) (hf : ∀ r, Acts h al (f r) (G r)) :
    Acts h al (x >>= f) (fun w => G (F w).1 (F w).2) := by
  intro s h1 h2
  rw [lm_bind, hx s h1 h2]
  exact hf _ _ h1 h2

theorem acts_deref {b : BlkId} {f : Node → LM σ Bool} {F : σ → Bool × σ} (hb : al b = true) (hf : Acts h al (f (h.node b)) F) : Acts h al (deref b >>= f) F := by
  intro s h1 h2
  rw [lm_bind, C62.deref_run (by rw [h2]; exact hb)]
  subst h1
  exact hf s rfl h2

theorem acts_pure (r : Bool) : Acts h al (pure r : LM σ Bool) (fun w => (r, w)) := fun _ _ _ => rfl

theorem visit_acts (hk : Known h al) {v : Visitor σ K} {blockOf : BlkId → Block K} {m : Nat} : ∀ {n : Nat} {b : BlkId} {B : Block K} {lv max : Nat}, b < h.next →
    unfold h leafOf linksOf m b = some B → (∀ x X k, unfold h leafOf linksOf k x = some X → blockOf x = X) → m + h.next + 1 ≤ n →
    Acts h al (visitP dbg (seen blockOf v) n b lv max) (B.visit v lv max) := by
  induction m with
  | zero => intro n b B _ _ _ e; cases e
  | succ m ih =>
    intro n b B lv max hb e hof hn
    have hB := hof _ _ _ e
    obtain ⟨k, hk', hc⟩ := unfold_cases e
    cases hk'
    obtain ⟨n, rfl⟩ : ∃ n', n = n' + 1 := ⟨n - 1, by omega⟩
    unfold visitP
    refine acts_deref (hk.alive b hb) ?_
    have hbase : Acts h al (traced dbg "block.hpp" 103 (blockMsg n b) (if lv > max then pure true else seen blockOf v b lv)) (fun w => if max < lv then (true, w) else v B lv w) := by
      refine acts_traced hk hb (by omega) fun s _ _ => ?_
      by_cases hl : max < lv
      · simp only [gt_iff_lt, hl, if_true]; rfl
      · simp only [gt_iff_lt, hl, if_false, seen, hB]
    rcases hc with ⟨hs, rfl⟩ | ⟨hs, kids, rfl, hks⟩
    · rw [hs]
      exact hbase
    · rw [hs]
      clear e
      refine acts_traced hk hb (by omega) ?_
      by_cases hl : max < lv
      · intro s _ _
        simp only [gt_iff_lt, hl, if_true, Block.visit]; rfl
      · rw [if_neg (show ¬ lv > max from hl)]
        have hkid : ∀ c ∈ h.kids b, c < h.next := fun c hc => hk.kids b c hc
        have hloop : Acts h al (forKids (fun c => visitP dbg (seen blockOf v) n c (lv + 1) max) (h.kids b)) (visitL v (lv + 1) max kids) := by
          clear hB hbase
          revert hkid hks
          generalize h.kids b = ids
          intro hks
          induction hks with
          | nil => intro _; exact acts_pure true
          | @cons c C l Cs hc _ ihl =>
            intro hkid
            unfold forKids
            have hrest := ihl fun d hd => hkid d (.tail _ hd)
            have := acts_bind (ih (lv := lv + 1) (max := max) (hkid c (.head _)) hc hof (by omega : m + h.next + 1 ≤ n))
              (f := fun r => if r then forKids (fun c => visitP dbg (seen blockOf v) n c (lv + 1) max) l else pure false) (G := fun r w => if r then visitL v (lv + 1) max Cs w else (false, w))
              fun r => by cases r; exact acts_pure false; exact hrest
            intro s h1 h2
            rw [this s h1 h2]
            simp only [visitL]
            cases (C.visit v (lv + 1) max s.ext).1 <;> rfl
        have := acts_bind hbase (f := fun r => if !r then pure false else if lv < max then (do let nd ← deref b; forKids (fun c => visitP dbg (seen blockOf v) n c (lv + 1) max) nd.kids) else pure true)
          (G := fun r w => if !r then (false, w) else if lv < max then visitL v (lv + 1) max kids w else (true, w)) fun r => by
            cases r
            · exact acts_pure false
            · by_cases hm : lv < max
              · simp only [Bool.not_true, Bool.false_eq_true, if_false, hm, if_true]
                exact acts_deref (hk.alive b hb) hloop
              · simp only [Bool.not_true, Bool.false_eq_true, if_false, hm]
                exact acts_pure true
        intro s h1 h2
        rw [this s h1 h2]
        simp only [Block.visit, hl, if_false]

end Pooya.C65
