import Verif.Ops.Lawful
/-!
# `multi_intersection` keeps the tree contract
-/
namespace Hibit

/-- Two lists related element by element. -/
def All2 {α β : Type} (P : α → β → Prop) : List α → List β → Prop
  | [], [] => True
  | a :: as, b :: bs => P a b ∧ All2 P as bs
  | _, _ => False

theorem All2.imp {α β : Type} {P Q : α → β → Prop} :
    ∀ {as : List α} {bs : List β}, (∀ a b, a ∈ as → P a b → Q a b) → All2 P as bs → All2 Q as bs
  | [], [], _, _ => trivial
  | a :: as, b :: bs, h, ⟨h1, h2⟩ =>
    ⟨h a b (by simp) h1, All2.imp (fun a b ha => h a b (by simp [ha])) h2⟩
  | [], _ :: _, _, h => h.elim
  | _ :: _, [], _, h => h.elim

/-- Denotation of a multi-intersection. -/
def miSpec {S δ : Type} (T : S → TreeSpec δ) (ss : List S) : TreeSpec (List δ) where
  bits := fun p i => ss.all (fun s => (T s).bits p i)
  content := fun p => ss.mapM (fun s => (T s).content p)

/-- Cursor relation of a multi-intersection. -/
def miRel {S C δ : Type} (N D : Nat) (T : S → TreeSpec δ) (K : S → CursorRel C) (ss : List S) :
    CursorRel (MICursor C) where
  inv := fun c => All2 (fun s c => (K s).inv c) ss c.cursors ∧ multiCap ≤ c.emptyBelowN ∧
    c.terminalMask.length = N
  pos := fun c p => All2 (fun s c => (K s).pos c p) ss c.cursors ∧ multiCap ≤ c.emptyBelowN ∧
    c.terminalMask.length = N
  posC := fun c p => All2 (fun s c => (K s).posC c p) ss c.cursors ∧ multiCap ≤ c.emptyBelowN ∧
    c.terminalMask.length = N ∧
    (p.length + 1 = D → ∀ j, c.terminalMask.bit j = (miSpec T ss).bits p j)

theorem miGather_eq {S δ : Type} {data : S → R (Option δ)} {g : S → Option δ} (ss : List S)
    (h : ∀ s ∈ ss, data s = .ok (g s)) : ∀ acc : List δ, acc.length + ss.length ≤ multiCap →
    miGather data ss acc = .ok ((ss.mapM g).map (acc ++ ·)) := by
  induction ss with
  | nil => intro acc _; simp [miGather]
  | cons s ss ih =>
    intro acc hl
    simp only [List.length_cons] at hl
    simp only [miGather, h s (by simp), bind_ok]
    cases hg : g s with
    | none => simp [List.mapM_cons, hg]
    | some d =>
      simp only [avPush, if_pos (show acc.length < multiCap by omega), bind_ok]
      rw [ih (fun s hs => h s (by simp [hs])) _ (by simp; omega)]
      simp only [List.mapM_cons, hg]
      cases hm : ss.mapM g <;> simp [hm]

theorem miGatherU_eq {S δ : Type} {dataU : S → R δ} {g : S → Option δ} (ss : List S)
    (h : ∀ s ∈ ss, ∀ d, g s = some d → dataU s = .ok d) :
    ∀ ds, ss.mapM g = some ds → miGatherU dataU ss = .ok ds := by
  induction ss with
  | nil => intro ds h; simp at h; subst h; rfl
  | cons s ss ih =>
    intro ds hd
    simp only [List.mapM_cons] at hd
    cases hg : g s with
    | none => simp [hg] at hd
    | some d =>
      cases hm : ss.mapM g with
      | none => simp [hg, hm] at hd
      | some ds' =>
        simp [hg, hm] at hd
        subst hd
        simp only [miGatherU, h s (by simp) d hg, bind_ok,
          ih (fun s hs => h s (by simp [hs])) _ hm, pure_eq_ok]

theorem mapM_isSome {S δ : Type} (g : S → Option δ) (ss : List S) :
    (ss.mapM g).isSome = ss.all (fun s => (g s).isSome) := by
  induction ss with
  | nil => simp
  | cons s ss ih =>
    simp only [List.mapM_cons, List.all_cons, ← ih]
    cases g s with
    | none => simp
    | some d => cases ss.mapM g <;> simp

theorem miCursors_ok {S C : Type} {new : S → R C} {P : S → C → Prop} (ss : List S)
    (h : ∀ s ∈ ss, ∃ c, new s = .ok c ∧ P s c) : ∀ acc : List C,
    acc.length + ss.length ≤ multiCap →
    ∃ cs, miCursors new ss acc = .ok (acc ++ cs) ∧ All2 P ss cs := by
  induction ss with
  | nil => intro acc _; exact ⟨[], by simp [miCursors], trivial⟩
  | cons s ss ih =>
    intro acc hl
    simp only [List.length_cons] at hl
    obtain ⟨c, e, hp⟩ := h s (by simp)
    obtain ⟨cs, e', ha⟩ := ih (fun s hs => h s (by simp [hs])) (acc ++ [c]) (by simp; omega)
    refine ⟨c :: cs, ?_, hp, ha⟩
    simp only [miCursors, e, bind_ok, avPush, if_pos (show acc.length < multiCap by omega), e']
    simp

theorem miSelectRest_ok {S C : Type} {N : Nat} {sel : C → S → R (Mask × C)} {P Q : S → C → Prop}
    {B : S → Nat → Bool} (ss : List S) (h : ∀ s ∈ ss, ∀ c, P s c → ∃ m c', sel c s = .ok (m, c') ∧
      m.length = N ∧ (∀ j, m.bit j = B s j) ∧ Q s c') :
    ∀ (cs : List C) (acc : Mask), All2 P ss cs → acc.length = N →
    ∃ m cs', miSelectRest sel cs ss acc = .ok (m, cs') ∧ m.length = N ∧
      (∀ j, m.bit j = (acc.bit j && ss.all (fun s => B s j))) ∧ All2 Q ss cs' := by
  induction ss with
  | nil =>
    intro cs acc hc hl
    cases cs with
    | nil => exact ⟨acc, [], rfl, hl, by simp, trivial⟩
    | cons c cs => exact hc.elim
  | cons s ss ih =>
    intro cs acc hc hl
    cases cs with
    | nil => exact hc.elim
    | cons c cs =>
      obtain ⟨hc1, hc2⟩ := hc
      obtain ⟨m, c', e, ml, mb, q⟩ := h s (by simp) c hc1
      have hlen : acc.length = m.length := by omega
      obtain ⟨m', cs', e', ml', mb', q'⟩ := ih (fun s hs => h s (by simp [hs])) cs (andMask acc m) hc2
        (by rw [length_andMask hlen, hl])
      refine ⟨m', c' :: cs', ?_, ml', ?_, q, q'⟩
      · simp [miSelectRest, unwrapU, e, e']
      · intro j
        rw [mb', bit_andMask hlen, mb]
        simp [Bool.and_assoc]

theorem miSelectAll_ok {S C : Type} {N : Nat} {sel : C → S → R (Mask × C)} {P Q : S → C → Prop}
    {B : S → Nat → Bool} (ss : List S) (hne : ss ≠ [])
    (h : ∀ s ∈ ss, ∀ c, P s c → ∃ m c', sel c s = .ok (m, c') ∧
      m.length = N ∧ (∀ j, m.bit j = B s j) ∧ Q s c') (cs : List C) (hc : All2 P ss cs) :
    ∃ m cs', miSelectAll sel cs ss = .ok (some (m, cs')) ∧ m.length = N ∧
      (∀ j, m.bit j = ss.all (fun s => B s j)) ∧ All2 Q ss cs' := by
  cases ss with
  | nil => exact (hne rfl).elim
  | cons s ss =>
    cases cs with
    | nil => exact hc.elim
    | cons c cs =>
      obtain ⟨hc1, hc2⟩ := hc
      obtain ⟨m, c', e, ml, mb, q⟩ := h s (by simp) c hc1
      obtain ⟨m', cs', e', ml', mb', q'⟩ :=
        miSelectRest_ok ss (fun s hs => h s (by simp [hs])) cs m hc2 ml
      refine ⟨m', c' :: cs', ?_, ml', ?_, q, q'⟩
      · simp [miSelectAll, unwrapU, e, e']
      · intro j; rw [mb', mb]; simp

theorem miCursorData_ok {S C δ : Type} {I : Impl S C δ} {i : Nat} {P : S → C → Prop}
    {g : S → Option δ} (ss : List S)
    (h : ∀ s ∈ ss, ∀ c d, P s c → g s = some d → I.curDataU c s i = .ok d) :
    ∀ (cs : List C) (ds : List δ), All2 P ss cs → ss.mapM g = some ds →
    miCursorData I i cs ss = .ok ds := by
  induction ss with
  | nil =>
    intro cs ds hc hd
    cases cs with
    | nil => simp at hd; subst hd; rfl
    | cons c cs => exact hc.elim
  | cons s ss ih =>
    intro cs ds hc hd
    cases cs with
    | nil => exact hc.elim
    | cons c cs =>
      simp only [List.mapM_cons] at hd
      cases hg : g s with
      | none => simp [hg] at hd
      | some d =>
        cases hm : ss.mapM g with
        | none => simp [hg, hm] at hd
        | some ds' =>
          simp [hg, hm] at hd
          subst hd
          simp [miCursorData, unwrapU, h s (by simp) c d hc.1 hg,
            ih (fun s hs => h s (by simp [hs])) cs ds' hc.2 hm]

theorem mi_lawfulC {S C δ : Type} {I : Impl S C δ} {ss : List S} {T : S → TreeSpec δ}
    {K : S → CursorRel C} (hne : ss ≠ []) (hcap : ss.length ≤ multiCap)
    (h : ∀ s ∈ ss, Lawful I s (T s) (K s)) :
    LawfulC (multiInterImpl I) ss (miSpec T ss) (miRel I.N I.D T K ss) := by
  obtain ⟨s0, hs0⟩ : ∃ s, s ∈ ss := List.exists_mem_of_ne_nil ss hne
  have hcfg := (h s0 hs0).cfg
  have hD : 0 < I.D := hcfg.depth
  have hterm : ∀ p i, ValidPath (width I.N) p → p.length + 1 = I.D → i < width I.N →
      (miSpec T ss).bits p i = ((miSpec T ss).content (p ++ [i])).isSome := by
    intro p i hp hl hi
    simp only [miSpec, mapM_isSome]
    rw [Bool.eq_iff_iff, List.all_eq_true, List.all_eq_true]
    constructor
    · intro hh s hs; rw [← (h s hs).wf.terminal p i hp hl hi]; exact hh s hs
    · intro hh s hs; rw [(h s hs).wf.terminal p i hp hl hi]; exact hh s hs
  have hcur : ∀ c p i d, (miRel I.N I.D T K ss).pos c p → ValidPath (width I.N) p →
      i < width I.N → p.length + 1 = I.D → (miSpec T ss).content (p ++ [i]) = some d →
      miCursorData I i c.cursors ss = .ok d := by
    intro c p i d hc hp hi hl hd
    exact miCursorData_ok ss
      (fun s hs c d hP hg => (h s hs).curDataU_eq c p i d hP hp hi hl hg) _ _ hc.1 hd
  have hsel : ∀ (c : MICursor C) n i p, multiCap ≤ c.emptyBelowN → c.terminalMask.length = I.N →
      n = p.length →
      (∃ m cs, miSelectAll (fun c s => I.select c s n i) c.cursors ss = .ok (some (m, cs)) ∧
        m.length = I.N ∧ (∀ j, m.bit j = ss.all (fun s => (T s).bits p j)) ∧
        All2 (fun s c => (K s).posC c p) ss cs) →
      ∃ m c', (multiInterImpl I).select c ss n i = .ok (m, c') ∧ m.length = I.N ∧
        (∀ j, m.bit j = (miSpec T ss).bits p j) ∧ (miRel I.N I.D T K ss).posC c' p := by
    rintro c n i p he ht hn ⟨m, cs, e, ml, mb, q⟩
    refine ⟨m, ⟨cs, if isZero m then multiCap else usizeMod - 1,
        if n = I.D - 1 then m else c.terminalMask⟩, ?_, ml, mb, q, ?_, ?_, ?_⟩
    · simp only [multiInterImpl, miSelect, if_neg (show ¬ multiCap > c.emptyBelowN by omega), e,
        bind_ok, pure_eq_ok]
    · dsimp only; split
      · exact Nat.le_refl _
      · decide
    · dsimp only; split <;> assumption
    · intro hp j
      dsimp only
      rw [if_pos (by omega)]
      exact mb j
  exact
  { cfg := hcfg
    wf :=
      { bits_lt := by
          intro p i hb
          simp only [miSpec, List.all_eq_true] at hb
          exact (h s0 hs0).wf.bits_lt p i (hb s0 hs0)
        terminal := hterm
        upward := by
          intro p i j hp hi hl hb
          simp only [miSpec, List.all_eq_true] at hb ⊢
          exact fun s hs => (h s hs).wf.upward p i j hp hi hl (hb s hs)
        exact_child := by intro he; simp [multiInterImpl] at he }
    data_eq := by
      intro p hp hl
      have := miGather_eq (data := fun s => I.data s (unpath (width I.N) p) p)
        (g := fun s => (T s).content p) ss (fun s hs => (h s hs).data_eq p hp hl) []
        (by simpa using hcap)
      simp only [multiInterImpl, this, miSpec]
      simp
    dataU_eq := by
      intro p d hp hl hd
      exact miGatherU_eq ss (fun s hs d hg => (h s hs).dataU_eq p d hp hl hg) d hd
    new_ok := by
      obtain ⟨cs, e, ha⟩ := miCursors_ok (new := I.new) (P := fun s c => (K s).inv c) ss
        (fun s hs => (h s hs).new_ok) [] (by simpa using hcap)
      exact ⟨⟨cs, usizeMod - 1, zeroMask I.N⟩, by simp [multiInterImpl, e], ha,
        (by decide : multiCap ≤ usizeMod - 1), by simp [zeroMask]⟩
    pos_inv := fun c p hc =>
      ⟨hc.1.imp (fun s c hs hp => (h s hs).pos_inv c p hp), hc.2⟩
    posC_pos := fun c p hc =>
      ⟨hc.1.imp (fun s c hs hp => (h s hs).posC_pos c p hp), hc.2.1, hc.2.2.1⟩
    pos_take := fun c p k hc =>
      ⟨hc.1.imp (fun s c hs hp => (h s hs).pos_take c p k hp), hc.2⟩
    select_root := by
      rintro c i ⟨h1, h2, h3⟩ hi
      exact hsel c 0 i [] h2 h3 rfl
        (miSelectAll_ok ss hne (fun s hs c hP => (h s hs).select_root c i hP hi) _ h1)
    select_node := by
      rintro c p i ⟨h1, h2, h3⟩ hp hi hl
      exact hsel c (p.length + 1) i (p ++ [i]) h2 h3 (by simp)
        (miSelectAll_ok ss hne (fun s hs c hP => (h s hs).select_node c p i hP hp hi hl) _ h1)
    selectU_root := by
      rintro c i ⟨h1, h2, h3⟩ hi
      obtain ⟨m, cs, e, ml, mb, q⟩ :=
        miSelectAll_ok ss hne (fun s hs c hP => (h s hs).selectU_root c i hP hi) _ h1
      exact ⟨m, { c with cursors := cs }, by simp [multiInterImpl, miSelectU, e], ml, mb, q, h2, h3⟩
    selectU_node := by
      rintro c p i ⟨h1, h2, h3⟩ hp hi hl hb
      simp only [miSpec, List.all_eq_true] at hb
      obtain ⟨m, cs, e, ml, mb, q⟩ := miSelectAll_ok ss hne
        (fun s hs c hP => (h s hs).selectU_node c p i hP hp hi hl (hb s hs)) _ h1
      exact ⟨m, { c with cursors := cs }, by simp [multiInterImpl, miSelectU, e], ml, mb, q, h2, h3⟩
    curDataU_eq := by
      intro c p i d hc hp hi hl hd
      exact hcur c p i d hc hp hi hl hd
    curData_eq := by
      rintro c p i ⟨h1, h2, h3, h4⟩ hp hi hl
      have hb := h4 hl i
      have hg : getBit c.terminalMask i = .ok (c.terminalMask.bit i) :=
        getBit_eq _ (by rw [h3]; exact hi)
      simp only [multiInterImpl, hg, bind_ok, hb]
      have ht := hterm p i hp hl hi
      cases hd : (miSpec T ss).content (p ++ [i]) with
      | none => rw [ht, hd]; rfl
      | some d =>
        rw [ht, hd]
        have := hcur c p i d
          ⟨h1.imp (fun s c hs hp => (h s hs).posC_pos c p hp), h2, h3⟩ hp hi hl hd
        simp [this] }

end Hibit
