import Verif.Props.Blocks
import Verif.Small.Own
/-!
# C78: every boxed array of a `SmallBlock` has one owner and is freed once; clones are independent

A program has variables; it creates blocks, calls methods on them, clones and drops them, in any order. The
specification knows no heap at all: a variable is a table (`Props/Blocks`) and whether it has left its inline array.
-/
namespace Hibit.Props
open Hibit Hibit.Small

/-- One step of a program with blocks in variables 0, 1, 2, … -/
inductive BAct where
  | make
  | call (j : Nat) (op : Op)
  | clone (j : Nat)
  | drop (j : Nat)

/-- The variables of the model: `none` after `drop`. -/
abbrev Vars := List (Option SBH)

/-- Run one step on the model (small_block.rs; heap of boxes in `Small/Own`). -/
def bact (N CAP : Nat) (h : BHeap) (s : Vars) : BAct → R (Option Obs × BHeap × Vars)
  | .make => .ok (none, h, s ++ [some (SBH.empty N CAP)])
  | .call j op => do
    let b ← unwrapU s[j]?.join
    let r ← b.step CAP h op
    return (some r.1, r.2.1, s.set j (some r.2.2))
  | .clone j => do
    let b ← unwrapU s[j]?.join
    let r ← b.clone h
    return (none, r.1, s ++ [some r.2])
  | .drop j => do
    let b ← unwrapU s[j]?.join
    let h ← b.drop h
    return (none, h, s.set j none)

/-- Run a program. -/
def bacts (N CAP : Nat) : BHeap → Vars → List BAct → R (List (Option Obs) × BHeap × Vars)
  | h, s, [] => .ok ([], h, s)
  | h, s, a :: as => do
    let r ← bact N CAP h s a
    let q ← bacts N CAP r.2.1 r.2.2 as
    return (r.1 :: q.1, q.2)

/-! ## The specification -/

/-- A variable holds a table (and whether it has been boxed), or is dead. -/
abbrev SVars := List (Option (Table × Bool))

/-- Steps on live variables only, and the calls of C59. -/
def legalAct (N CAP : Nat) (s : SVars) : BAct → Prop
  | .make => True
  | .call j op => ∃ t : Table × Bool, s[j]? = some (some t) ∧ legal N t.1 op ∧ ¬ overreads N CAP t.1 t.2 op
  | .clone j => ∃ t, s[j]? = some (some t)
  | .drop j => ∃ t, s[j]? = some (some t)

/-- The variables afterwards: a clone is a new variable with the same table, a call changes one variable. -/
def afterAct (N CAP : Nat) (s : SVars) : BAct → SVars
  | .make => s ++ [some (noItems, false)]
  | .call j op =>
    match s[j]? with
    | some (some t) => s.set j (some (after t.1 op, t.2 || spills N CAP t.1 op))
    | _ => s
  | .clone j => s ++ [s[j]?.join]
  | .drop j => s.set j none

/-- What the step shows. -/
def showsAct (N : Nat) (s : SVars) : BAct → Option (Nat × Bool × (Nat → Bool) × Bool)
  | .call j op =>
    match s[j]? with
    | some (some t) => some (shows N t.1 op)
    | _ => none
  | _ => none

/-- A legal program. -/
def LegalProg (N CAP : Nat) : SVars → List BAct → Prop
  | _, [] => True
  | s, a :: as => legalAct N CAP s a ∧ LegalProg N CAP (afterAct N CAP s a) as

/-- Everything a program shows. -/
def specProg (N CAP : Nat) : SVars → List BAct → List (Option (Nat × Bool × (Nat → Bool) × Bool))
  | _, [] => []
  | s, a :: as => showsAct N s a :: specProg N CAP (afterAct N CAP s a) as

/-- The variables at the end. -/
def endProg (N CAP : Nat) : SVars → List BAct → SVars
  | s, [] => s
  | s, a :: as => endProg N CAP (afterAct N CAP s a) as

/-- How many live variables have been boxed. -/
def boxedVars (s : SVars) : Nat := s.countP fun x => match x with
  | some t => t.2
  | none => false

/-- The boxes alive. -/
def liveBoxes (h : BHeap) : List Nat := (List.range h.next).filter fun a => (h.box a).isSome

/-! ## The invariant -/

structure Owned (N CAP : Nat) (h : BHeap) (s : Vars) (t : SVars) : Prop where
  len : s.length = t.length
  live : ∀ (j : Nat) (x : Table × Bool), t[j]? = some (some x) →
    ∃ (b : SBH) (v : SB), s[j]? = some (some b) ∧ Corr h b v ∧ Rep N CAP v x.1 x.2 ∧ Nz x.1
  dead : ∀ j : Nat, t[j]? = some none → s[j]? = some none
  one : ∀ (i j : Nat) (b b' : SBH) (a : Nat), s[i]? = some (some b) → s[j]? = some (some b') → b.owns = some a → b'.owns = some a → i = j
  cover : ∀ a l, h.box a = some l → ∃ (j : Nat) (b : SBH), s[j]? = some (some b) ∧ b.owns = some a
  fresh : h.Fresh

theorem Owned.start (N CAP n : Nat) : Owned N CAP ⟨fun _ => none, n⟩ [] [] where
  len := rfl
  live := by intro j x e; simp at e
  dead := by intro j e; simp at e
  one := by intro i j b b' a e; simp at e
  cover := by intro a l e; cases e
  fresh := fun _ _ => rfl

theorem Owned.back {N CAP : Nat} {h : BHeap} {s : Vars} {t : SVars} (I : Owned N CAP h s t) {j : Nat} {b : SBH}
    (e : s[j]? = some (some b)) :
    ∃ (x : Table × Bool) (v : SB), t[j]? = some (some x) ∧ Corr h b v ∧ Rep N CAP v x.1 x.2 ∧ Nz x.1 := by
  have hj : j < t.length := by
    rw [← I.len]
    obtain ⟨hj, _⟩ := List.getElem?_eq_some_iff.1 e
    exact hj
  cases e2 : t[j]? with
  | none => rw [List.getElem?_eq_none_iff] at e2; omega
  | some y =>
    cases y with
    | none => rw [I.dead j e2] at e; cases e
    | some x =>
      obtain ⟨b', v, e3, c, r, z⟩ := I.live j x e2
      rw [e] at e3
      cases e3
      exact ⟨x, v, rfl, c, r, z⟩

theorem Owned.owns_lt {N CAP : Nat} {h : BHeap} {s : Vars} {t : SVars} (I : Owned N CAP h s t) {j a : Nat} {b : SBH}
    (e : s[j]? = some (some b)) (ho : b.owns = some a) : a < h.next ∧ ∃ l, h.box a = some l := by
  obtain ⟨x, v, _, c, _, _⟩ := I.back e
  cases c with
  | @big m a' l el =>
    cases ho
    refine ⟨?_, l, el⟩
    apply Classical.byContradiction
    intro hn
    rw [I.fresh _ (by omega)] at el
    cases el
  | small => cases ho

/-- A call. -/
theorem Owned.call {N CAP : Nat} {h h' : BHeap} {s : Vars} {t : SVars} (I : Owned N CAP h s t) {j : Nat}
    {b b' : SBH} {v' : SB} {x' : Table × Bool} (e : s[j]? = some (some b))
    (c : Corr h' b' v') (r : Rep N CAP v' x'.1 x'.2) (z : Nz x'.1) (f : Frame h b h' b') :
    Owned N CAP h' (s.set j (some b')) (t.set j (some x')) := by
  have hj : j < s.length := (List.getElem?_eq_some_iff.1 e).1
  have hother : ∀ (i : Nat) (b2 : SBH) (a : Nat), s[i]? = some (some b2) → i ≠ j → b2.owns = some a → b'.owns ≠ some a := by
    intro i b2 a ei hij ha hb
    rcases f.owns with ho | ⟨_, ho⟩
    · rw [ho] at hb
      exact hij (I.one i j b2 b a ei e ha hb)
    · have := (I.owns_lt ei ha).1
      rw [ho] at hb
      injection hb with hb
      omega
  refine ⟨by simp [I.len], ?_, ?_, ?_, ?_, f.fresh I.fresh⟩
  · intro i x ei
    rw [List.getElem?_set] at ei
    by_cases hij : j = i
    · subst hij
      rw [if_pos rfl] at ei
      split at ei
      · cases ei
        refine ⟨b', v', ?_, c, r, z⟩
        simp [List.getElem?_set, hj]
      · cases ei
    · rw [if_neg hij] at ei
      obtain ⟨b2, v2, e2, c2, r2, z2⟩ := I.live i x ei
      refine ⟨b2, v2, ?_, ?_, r2, z2⟩
      · simp [List.getElem?_set, hij, e2]
      · refine c2.frame f I.fresh ?_
        intro a ha hb
        exact hij (I.one j i b b2 a e e2 hb ha)
  · intro i ei
    rw [List.getElem?_set] at ei
    by_cases hij : j = i
    · subst hij
      rw [if_pos rfl] at ei
      split at ei <;> cases ei
    · rw [if_neg hij] at ei
      rw [List.getElem?_set, if_neg hij]
      exact I.dead i ei
  · intro i k b2 b3 a e2 e3 h2 h3
    rw [List.getElem?_set] at e2 e3
    by_cases hij : j = i
    · subst hij
      by_cases hkj : j = k
      · exact hkj
      · rw [if_pos rfl, if_pos hj] at e2
        cases e2
        rw [if_neg hkj] at e3
        exact absurd h2 (hother k b3 a e3 (Ne.symm hkj) h3)
    · rw [if_neg hij] at e2
      by_cases hkj : j = k
      · subst hkj
        rw [if_pos rfl, if_pos hj] at e3
        cases e3
        exact absurd h3 (hother i b2 a e2 (Ne.symm hij) h2)
      · rw [if_neg hkj] at e3
        exact I.one i k b2 b3 a e2 e3 h2 h3
  · intro a l ea
    rcases f.cover a l ea with ⟨l', el'⟩ | ho
    · obtain ⟨i, b2, e2, o2⟩ := I.cover a l' el'
      by_cases hij : j = i
      · subst hij
        rw [e] at e2
        cases e2
        refine ⟨j, b', by simp [List.getElem?_set, hj], ?_⟩
        rcases f.owns with ho | ⟨ho, _⟩
        · rw [ho, o2]
        · rw [o2] at ho; cases ho
      · exact ⟨i, b2, by simp [List.getElem?_set, hij, e2], o2⟩
    · exact ⟨j, b', by simp [List.getElem?_set, hj], ho⟩

theorem append_get {α : Type} {l : List α} {x y : α} {i : Nat} (h : (l ++ [x])[i]? = some y) :
    l[i]? = some y ∨ (i = l.length ∧ x = y) := by
  rw [List.getElem?_append] at h
  split at h
  · exact .inl h
  · rename_i hn
    rw [List.getElem?_singleton] at h
    split at h
    · exact .inr ⟨by omega, by injection h⟩
    · cases h

/-- A new variable. -/
theorem Owned.push {N CAP : Nat} {h h' : BHeap} {s : Vars} {t : SVars} (I : Owned N CAP h s t)
    {b' : SBH} {v' : SB} {x' : Table × Bool}
    (c : Corr h' b' v') (r : Rep N CAP v' x'.1 x'.2) (z : Nz x'.1)
    (hsame : ∀ a, a < h.next → h'.box a = h.box a)
    (hcov : ∀ a l, h'.box a = some l → (∃ l', h.box a = some l') ∨ b'.owns = some a)
    (hown : ∀ a, b'.owns = some a → h.next ≤ a) (hf : h'.Fresh) :
    Owned N CAP h' (s ++ [some b']) (t ++ [some x']) := by
  have hcorr : ∀ b v, Corr h b v → Corr h' b v := by
    intro b v c
    cases c with
    | @big m a l e =>
      refine .big ?_
      rw [hsame a ?_]
      · exact e
      · apply Classical.byContradiction
        intro hn
        rw [I.fresh a (by omega)] at e
        cases e
    | small => exact .small
  refine ⟨by simp [I.len], ?_, ?_, ?_, ?_, hf⟩
  · intro i x ei
    rcases append_get ei with h1 | ⟨h1, h2⟩
    · obtain ⟨b2, v2, e2, c2, r2, z2⟩ := I.live i x h1
      refine ⟨b2, v2, ?_, hcorr _ _ c2, r2, z2⟩
      rw [List.getElem?_append_left (List.getElem?_eq_some_iff.1 e2).1]
      exact e2
    · cases h2
      refine ⟨b', v', ?_, c, r, z⟩
      rw [h1, ← I.len]
      simp
  · intro i ei
    rcases append_get ei with h1 | ⟨h1, h2⟩
    · have := I.dead i h1
      rw [List.getElem?_append_left (List.getElem?_eq_some_iff.1 this).1]
      exact this
    · cases h2
  · intro i k b2 b3 a e2 e3 h2 h3
    rcases append_get e2 with p2 | ⟨p2, q2⟩
    · rcases append_get e3 with p3 | ⟨p3, q3⟩
      · exact I.one i k b2 b3 a p2 p3 h2 h3
      · cases q3
        have h4 := (I.owns_lt p2 h2).1
        have h5 := hown a h3
        omega
    · cases q2
      rcases append_get e3 with p3 | ⟨p3, q3⟩
      · have h4 := (I.owns_lt p3 h3).1
        have h5 := hown a h2
        omega
      · omega
  · intro a l ea
    rcases hcov a l ea with ⟨l', el'⟩ | ho
    · obtain ⟨i, b2, e2, o2⟩ := I.cover a l' el'
      refine ⟨i, b2, ?_, o2⟩
      rw [List.getElem?_append_left (List.getElem?_eq_some_iff.1 e2).1]
      exact e2
    · exact ⟨s.length, b', by simp, ho⟩

/-- A dropped variable. -/
theorem Owned.dropped {N CAP : Nat} {h h' : BHeap} {s : Vars} {t : SVars} (I : Owned N CAP h s t) {j : Nat}
    {b : SBH} (e : s[j]? = some (some b))
    (hsame : ∀ a, b.owns ≠ some a → h'.box a = h.box a) (hgone : ∀ a, b.owns = some a → h'.box a = none)
    (hn : h'.next = h.next) : Owned N CAP h' (s.set j none) (t.set j none) := by
  have hj : j < s.length := (List.getElem?_eq_some_iff.1 e).1
  have hget : ∀ (i : Nat) (b2 : SBH), (s.set j none)[i]? = some (some b2) → j ≠ i ∧ s[i]? = some (some b2) := by
    intro i b2 ei
    rw [List.getElem?_set] at ei
    by_cases hij : j = i
    · rw [if_pos hij] at ei
      split at ei <;> cases ei
    · rw [if_neg hij] at ei
      exact ⟨hij, ei⟩
  refine ⟨by simp [I.len], ?_, ?_, ?_, ?_, ?_⟩
  · intro i x ei
    rw [List.getElem?_set] at ei
    by_cases hij : j = i
    · rw [if_pos hij] at ei
      split at ei <;> cases ei
    · rw [if_neg hij] at ei
      obtain ⟨b2, v2, e2, c2, r2, z2⟩ := I.live i x ei
      refine ⟨b2, v2, by simp [List.getElem?_set, hij, e2], ?_, r2, z2⟩
      cases c2 with
      | @big m a l el =>
        refine .big ?_
        rw [hsame a ?_]
        · exact el
        · intro hb
          exact hij (I.one j i b ⟨m, .big a⟩ a e e2 hb rfl)
      | small => exact .small
  · intro i ei
    rw [List.getElem?_set] at ei ⊢
    by_cases hij : j = i
    · subst hij
      simp [hj]
    · rw [if_neg hij] at ei ⊢
      exact I.dead i ei
  · intro i k b2 b3 a e2 e3 h2 h3
    exact I.one i k b2 b3 a (hget i b2 e2).2 (hget k b3 e3).2 h2 h3
  · intro a l ea
    by_cases hb : b.owns = some a
    · rw [hgone a hb] at ea; cases ea
    · rw [hsame a hb] at ea
      obtain ⟨i, b2, e2, o2⟩ := I.cover a l ea
      refine ⟨i, b2, ?_, o2⟩
      have hij : j ≠ i := by
        intro hij
        subst hij
        rw [e] at e2
        cases e2
        exact hb o2
      simp [List.getElem?_set, hij, e2]
  · intro a ha
    rw [hn] at ha
    by_cases hb : b.owns = some a
    · exact hgone a hb
    · rw [hsame a hb]; exact I.fresh a ha

/-! ## One step -/

theorem bact_step {N CAP : Nat} (hN : 0 < N) (hcap : CAP < 256) {h : BHeap} {s : Vars} {t : SVars}
    (I : Owned N CAP h s t) {a : BAct} (hl : legalAct N CAP t a) :
    ∃ o h' s', bact N CAP h s a = .ok (o, h', s') ∧ o.map seen = showsAct N t a ∧
      Owned N CAP h' s' (afterAct N CAP t a) := by
  cases a with
  | make =>
    refine ⟨none, h, s ++ [some (SBH.empty N CAP)], rfl, rfl, ?_⟩
    exact I.push (v' := SB.empty N CAP) (x' := (noItems, false)) .small (Rep.empty hN) noItems_nz
      (fun _ _ => rfl) (fun a l e => .inl ⟨l, e⟩) (fun a e => by cases e) I.fresh
  | call j op =>
    obtain ⟨x, ex, hl1, hl2⟩ := hl
    obtain ⟨b, v, eb, c, r, z⟩ := I.live j x ex
    obtain ⟨o, v', ev, es, r'⟩ := small_step hN hcap r z hl1 hl2
    obtain ⟨h', b', e', c', f⟩ := c.step ev
    refine ⟨some o, h', s.set j (some b'), ?_, ?_, ?_⟩
    · simp only [bact, eb, Option.join_some, unwrapU, bind_ok, e']
      rfl
    · simp only [showsAct, ex, Option.map_some, es]
    · simp only [afterAct, ex]
      exact I.call eb c' r' (z.after hl1) f
  | clone j =>
    obtain ⟨x, ex⟩ := hl
    obtain ⟨b, v, eb, c, r, z⟩ := I.live j x ex
    have hb := r.isBig hN
    rw [← c.isBig] at hb
    cases c with
    | @big m a l el =>
      refine ⟨none, ⟨Dense.upd h.box h.next (some l), h.next + 1⟩, s ++ [some ⟨m, .big h.next⟩], ?_, rfl, ?_⟩
      · simp only [bact, eb, Option.join_some, unwrapU, bind_ok, SBH.clone, StoreH.clone, StoreH.isBig, if_true,
          StoreH.asBig, BHeap.read, el, BHeap.new]
        rfl
      · simp only [afterAct, ex, Option.join_some]
        refine I.push (v' := ⟨m, .big l⟩) (.big (upd_same' _ _ _)) r z ?_ ?_ ?_ ?_
        · intro a' ha
          have : a' ≠ h.next := by omega
          simp [Dense.upd, this]
        · intro a' l' e
          by_cases ha : a' = h.next
          · right; simp [SBH.owns, ha]
          · simp only [Dense.upd, ha, if_false] at e
            exact .inl ⟨l', e⟩
        · intro a' e
          simp only [SBH.owns, Option.some.injEq] at e
          omega
        · intro a' ha
          have ha : h.next + 1 ≤ a' := ha
          have : a' ≠ h.next := by omega
          simp only [Dense.upd, this, if_false]
          exact I.fresh a' (by omega)
    | @small m p cs =>
      have hf : x.2 = false := by
        cases hx : x.2 with
        | false => rfl
        | true =>
          obtain ⟨a, ea, _⟩ := r.big hx
          cases ea
      rw [hf] at hb
      refine ⟨none, h, s ++ [some ⟨m, .small p cs⟩], ?_, rfl, ?_⟩
      · simp only [bact, eb, Option.join_some, unwrapU, bind_ok, SBH.clone, StoreH.clone]
        rw [hb]
        rfl
      · simp only [afterAct, ex, Option.join_some]
        exact I.push (v' := ⟨m, .small p cs⟩) .small r z
          (fun _ _ => rfl) (fun a l e => .inl ⟨l, e⟩) (fun a e => by cases e) I.fresh
  | drop j =>
    obtain ⟨x, ex⟩ := hl
    obtain ⟨b, v, eb, c, r, z⟩ := I.live j x ex
    have hb := r.isBig hN
    rw [← c.isBig] at hb
    cases c with
    | @big m a l el =>
      refine ⟨none, ⟨Dense.upd h.box a none, h.next⟩, s.set j none, ?_, rfl, ?_⟩
      · simp only [bact, eb, Option.join_some, unwrapU, bind_ok, SBH.drop, StoreH.drop, StoreH.isBig, if_true,
          StoreH.asBig, BHeap.free, el]
        rfl
      · simp only [afterAct]
        refine I.dropped eb ?_ ?_ rfl
        · intro a' ha
          have : a' ≠ a := fun e => ha (by rw [e]; rfl)
          simp [Dense.upd, this]
        · intro a' ha
          cases ha
          simp [Dense.upd]
    | @small m p cs =>
      have hf : x.2 = false := by
        cases hx : x.2 with
        | false => rfl
        | true =>
          obtain ⟨a, ea, _⟩ := r.big hx
          cases ea
      rw [hf] at hb
      refine ⟨none, h, s.set j none, ?_, rfl, ?_⟩
      · simp only [bact, eb, Option.join_some, unwrapU, bind_ok, SBH.drop, StoreH.drop]
        rw [hb]
        rfl
      · simp only [afterAct]
        exact I.dropped eb (fun _ _ => rfl) (fun a e => by cases e) rfl

theorem bacts_run {N CAP : Nat} (hN : 0 < N) (hcap : CAP < 256) : ∀ (as : List BAct) {h : BHeap} {s : Vars}
    {t : SVars}, Owned N CAP h s t → LegalProg N CAP t as →
    ∃ os h' s', bacts N CAP h s as = .ok (os, h', s') ∧ os.map (fun o => o.map seen) = specProg N CAP t as ∧
      Owned N CAP h' s' (endProg N CAP t as)
  | [], h, s, t, I, _ => ⟨[], h, s, rfl, rfl, I⟩
  | a :: as, h, s, t, I, ⟨h1, h2⟩ => by
    obtain ⟨o, h', s', e, eo, I'⟩ := bact_step hN hcap I h1
    obtain ⟨os, h2', s2', e2, eo2, I2⟩ := bacts_run hN hcap as I' h2
    refine ⟨o :: os, h2', s2', ?_, ?_, I2⟩
    · simp only [bacts, e, bind_ok, e2]; rfl
    · simp only [List.map_cons, eo, eo2, specProg]

/-! ## Counting boxes -/

theorem nodup_filterMap_owns {f : Option SBH → Option Nat} : ∀ (s : Vars),
    (∀ (i j : Nat) (x y : Option SBH) (a : Nat), s[i]? = some x → s[j]? = some y → f x = some a → f y = some a →
      i = j) → (s.filterMap f).Nodup
  | [], _ => by simp
  | x :: s, H => by
    have ih : (s.filterMap f).Nodup := nodup_filterMap_owns s (by
      intro i j x y a e1 e2 h1 h2
      have := H (i + 1) (j + 1) x y a (by simpa using e1) (by simpa using e2) h1 h2
      omega)
    cases hx : f x with
    | none => rw [List.filterMap_cons_none hx]; exact ih
    | some a =>
      rw [List.filterMap_cons_some hx, List.nodup_cons]
      refine ⟨?_, ih⟩
      intro hm
      obtain ⟨y, hy, hy2⟩ := List.mem_filterMap.1 hm
      obtain ⟨j, hj⟩ := List.mem_iff_getElem?.1 hy
      have := H 0 (j + 1) x y a (by simp) (by simpa using hj) hx hy2
      omega

theorem countP_eq_of_getElem {α β : Type} {p : α → Bool} {q : β → Bool} : ∀ {l : List α} {m : List β},
    l.length = m.length → (∀ (i : Nat) (x : α) (y : β), l[i]? = some x → m[i]? = some y → p x = q y) →
    l.countP p = m.countP q
  | [], [], _, _ => by simp
  | [], _ :: _, h, _ => by simp at h
  | _ :: _, [], h, _ => by simp at h
  | x :: l, y :: m, h, H => by
    have ih : l.countP p = m.countP q := countP_eq_of_getElem (by simpa using h) (by
      intro i a b e1 e2
      exact H (i + 1) a b (by simpa using e1) (by simpa using e2))
    rw [List.countP_cons, List.countP_cons, ih, H 0 x y (by simp) (by simp)]

theorem Owned.count {N CAP : Nat} {h : BHeap} {s : Vars} {t : SVars} (I : Owned N CAP h s t) :
    (liveBoxes h).length = boxedVars t := by
  let own : Option SBH → Option Nat := fun o => o.bind SBH.owns
  have hown : ∀ (x : Option SBH) (a : Nat), own x = some a → ∃ b, x = some b ∧ b.owns = some a := by
    intro x a e
    cases x with
    | none => cases e
    | some b => exact ⟨b, rfl, e⟩
  have h1 : (liveBoxes h).Perm (s.filterMap own) := by
    refine (List.perm_ext_iff_of_nodup ?_ ?_).2 ?_
    · exact List.Pairwise.filter _ List.nodup_range
    · refine nodup_filterMap_owns s ?_
      intro i j x y a e1 e2 o1 o2
      obtain ⟨b, rfl, ob⟩ := hown x a o1
      obtain ⟨b', rfl, ob'⟩ := hown y a o2
      exact I.one i j b b' a e1 e2 ob ob'
    · intro a
      simp only [liveBoxes, List.mem_filter, List.mem_range, List.mem_filterMap]
      constructor
      · rintro ⟨_, ha⟩
        obtain ⟨l, el⟩ := Option.isSome_iff_exists.1 ha
        obtain ⟨j, b, e, o⟩ := I.cover a l el
        exact ⟨some b, List.mem_iff_getElem?.2 ⟨j, e⟩, o⟩
      · rintro ⟨x, hx, ox⟩
        obtain ⟨b, rfl, ob⟩ := hown x a ox
        obtain ⟨j, e⟩ := List.mem_iff_getElem?.1 hx
        obtain ⟨h1, l, h2⟩ := I.owns_lt e ob
        exact ⟨h1, by rw [h2]; rfl⟩
  rw [h1.length_eq, List.length_filterMap_eq_countP]
  unfold boxedVars
  refine countP_eq_of_getElem I.len ?_
  intro i x y e1 e2
  cases y with
  | none =>
    rw [I.dead i e2] at e1
    cases e1
    rfl
  | some z =>
    obtain ⟨b, v, e3, c, r, _⟩ := I.live i z e2
    rw [e1] at e3
    cases e3
    cases hz : z.2 with
    | true =>
      obtain ⟨l, el, _⟩ := r.big hz
      cases c with
      | big e => simp [own, SBH.owns, hz]
      | small => cases el
    | false =>
      obtain ⟨p, cs, el, _⟩ := r.small hz
      cases c with
      | big e => cases el
      | small => simp [own, SBH.owns, hz]

/-- The heap before anything is allocated. -/
def noBoxes : BHeap := ⟨fun _ => none, 0⟩

/-- **C78.** A program that creates, uses, clones and drops compact blocks in any order (each variable only while it is
alive, calls as in C59) never misbehaves: it touches no freed box and frees none twice; every call shows what the
heap-free specification says, in which a clone is a separate table; and at every moment (`as` may be any prefix) the
boxes alive are exactly as many as the live blocks that have left their inline array. -/
theorem C78_blocks_own (N CAP : Nat) (hN : 0 < N) (hcap : CAP < 256) (as : List BAct)
    (hl : LegalProg N CAP [] as) :
    ∃ os h s, bacts N CAP noBoxes [] as = .ok (os, h, s) ∧
      os.map (fun o => o.map seen) = specProg N CAP [] as ∧
      (liveBoxes h).length = boxedVars (endProg N CAP [] as) := by
  obtain ⟨os, h, s, e, eo, I⟩ := bacts_run hN hcap as (Owned.start N CAP 0) hl
  exact ⟨os, h, s, e, eo, I.count⟩

/-- **C78, no leak**: when all variables have been dropped no box is left, at any address. -/
theorem C78_no_leak (N CAP : Nat) (hN : 0 < N) (hcap : CAP < 256) (as : List BAct)
    (hl : LegalProg N CAP [] as) (hd : ∀ x, x ∈ endProg N CAP [] as → x = none) :
    ∃ os h s, bacts N CAP noBoxes [] as = .ok (os, h, s) ∧ ∀ a, h.box a = none := by
  obtain ⟨os, h, s, e, eo, I⟩ := bacts_run hN hcap as (Owned.start N CAP 0) hl
  refine ⟨os, h, s, e, ?_⟩
  intro a
  cases ha : h.box a with
  | none => rfl
  | some l =>
    obtain ⟨j, b, e1, _⟩ := I.cover a l ha
    obtain ⟨x, v, e2, _⟩ := I.back e1
    have := hd _ (List.mem_iff_getElem?.2 ⟨j, e2⟩)
    cases this

/-- **C78, the second drop**: dropping the same boxed block twice (which safe code cannot do) is undefined behaviour in
the model: the heap distinguishes the programs. -/
theorem C78_double_drop (h : BHeap) (m : Mask) (a : Nat) (h' : BHeap)
    (e : SBH.drop h ⟨m, .big a⟩ = .ok h') : SBH.drop h' ⟨m, .big a⟩ = .error .ub := by
  simp only [SBH.drop, StoreH.drop, StoreH.isBig, bind_ok, if_true, StoreH.asBig, BHeap.free] at e ⊢
  obtain ⟨l, _, e⟩ := bind_inv e
  cases e
  simp [Dense.upd, unwrapU]

/-- Two blocks of one mask word and inline capacity 2. The first is filled past its capacity, cloned, the clone changed,
the first dropped, the clone read. -/
def exProg : List BAct :=
  [.make, .call 0 (.getOrInsert 3 10), .call 0 (.getOrInsert 9 11), .clone 0, .call 0 (.getOrInsert 40 12), .clone 0,
    .call 2 (.set 3 77), .call 0 (.get 3), .drop 0, .call 2 (.get 3), .call 1 (.get 40), .call 2 (.remove 40)]

example : LegalProg 1 2 [] exProg := by
  simp [LegalProg, exProg, legalAct, afterAct, legal, overreads, after, noItems, width, held]

example : (do
    let r ← bacts 1 2 noBoxes [] exProg
    return (r.1.map fun o => o.map fun o => (o.item, o.inserted), (liveBoxes r.2.1).length, r.2.2.map Option.isSome) :
      R (List (Option (Nat × Bool)) × Nat × List Bool)) =
    .ok ([none, some (10, true), some (11, true), none, some (12, true), none, some (0, false), some (10, false), none,
      some (77, false), some (0, false), some (0, false)], 1, [false, true, true]) := by decide +kernel

example : (do
    let r ← bacts 1 2 noBoxes [] (exProg ++ [.drop 1, .drop 2])
    return (liveBoxes r.2.1, r.2.1.next, r.2.2) : R (List Nat × Nat × Vars)) =
    .ok ([], 2, [none, none, none]) := by decide +kernel

end Hibit.Props
