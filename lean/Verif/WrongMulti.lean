import Verif.WrongOps
/-!
# Trees with wrong answers: `multi_union` and `multi_intersection`
-/
namespace Hibit

section
variable {S C δ : Type} {I : Impl S C δ} {u h : Bool}

theorem avPush_nub {α : Type} {l : List α} {a : α} :
    Nub tm (avPush l a) (fun l' => l' = l ++ [a] ∧ l.length < multiCap) := by
  unfold avPush
  split
  · exact Nub.ok ⟨rfl, by assumption⟩
  · exact Nub.panic

theorem muGather_nub {data : S → R (Option δ)} : ∀ (ss : List S),
    (∀ s ∈ ss, Nub tm (data s) (fun _ => True)) → ∀ acc, Nub tm (muGather data ss acc) (fun _ => True) := by
  intro ss
  induction ss with
  | nil => intro _ acc; exact Nub.ok trivial
  | cons s ss ih =>
    intro hd acc
    rw [muGather]
    refine (hd s (by simp)).bind fun d _ => ?_
    cases d with
    | none => exact ih (fun s hs => hd s (by simp [hs])) _
    | some d => exact avPush_nub.bind fun acc _ => ih (fun s hs => hd s (by simp [hs])) _

theorem miGather_nub {data : S → R (Option δ)} : ∀ (ss : List S),
    (∀ s ∈ ss, Nub tm (data s) (fun _ => True)) → ∀ acc, Nub tm (miGather data ss acc) (fun _ => True) := by
  intro ss
  induction ss with
  | nil => intro _ acc; exact Nub.ok trivial
  | cons s ss ih =>
    intro hd acc
    rw [miGather]
    refine (hd s (by simp)).bind fun d _ => ?_
    cases d with
    | none => exact Nub.pure trivial
    | some d => exact avPush_nub.bind fun acc _ => ih (fun s hs => hd s (by simp [hs])) _

/-! ### `multi_union` -/

theorem avCursors_nub {new : S → R C} {P : S → C → Prop} : ∀ (ss : List S),
    (∀ s ∈ ss, Nub tm (new s) (P s)) → ∀ (acc : List (S × C)), (∀ s c, (s, c) ∈ acc → P s c) →
    acc.length ≤ multiCap →
    Nub tm (avCursors new ss acc) (fun cs => cs.length ≤ multiCap ∧ ∀ s c, (s, c) ∈ cs → P s c) := by
  intro ss
  induction ss with
  | nil => intro _ acc ha hl; exact Nub.ok ⟨hl, ha⟩
  | cons s ss ih =>
    intro hn acc ha hl
    rw [avCursors]
    refine (hn s (by simp)).bind fun c hc => ?_
    refine avPush_nub.bind ?_
    rintro acc' ⟨rfl, hlt⟩
    refine ih (fun s hs => hn s (by simp [hs])) _ ?_ (by simp; omega)
    intro s' c' hm
    rcases List.mem_append.1 hm with hm | hm
    · exact ha s' c' hm
    · simp at hm; obtain ⟨rfl, rfl⟩ := hm; exact hc

theorem muSelectRoot_nub {P Q : S → C → Prop} {i : Nat} : ∀ (cs : List (S × C)) (acc : Mask),
    (∀ s c, (s, c) ∈ cs → Nub tm (I.select c s 0 i) (fun r => r.1.length = I.N ∧ Q s r.2)) →
    acc.length = I.N →
    Nub tm (muSelectRoot I i cs acc) (fun r => r.1.length = I.N ∧ r.2.length = cs.length ∧
      ∀ s c, (s, c) ∈ r.2 → Q s c) := by
  intro cs
  induction cs with
  | nil => intro acc _ hl; exact Nub.ok ⟨hl, rfl, by simp⟩
  | cons x cs ih =>
    obtain ⟨s, c⟩ := x
    intro acc hsel hl
    rw [muSelectRoot]
    refine (hsel s c (by simp)).bind ?_
    rintro ⟨m, c'⟩ ⟨hm, hq⟩
    simp only at hm hq ⊢
    refine (ih (orMask acc m) (fun s c hs => hsel s c (by simp [hs]))
      (by rw [length_orMask (by omega), hl])).bind ?_
    rintro ⟨acc', rest'⟩ ⟨h1, h2, h3⟩
    refine Nub.pure ⟨h1, by simp [h2], ?_⟩
    intro s1 c1 h4
    simp only [List.mem_cons, Prod.mk.injEq] at h4
    rcases h4 with ⟨rfl, rfl⟩ | h4
    · exact hq
    · exact h3 s1 c1 h4

/-- What is known of the cursor of source number `k`. -/
def MUSrc (tm u h : Bool) (I : Impl S C δ) (cs : List (S × C)) (P : Nat → Nat → Prop) : Prop :=
  ∀ (k : Nat) (s : S) (cc : C), cs[k]? = some (s, cc) →
    ∃ ms, okAll tm u h I s cc ms true ∧ P k ms.length

theorem okAll_by {s : S} {c : C} {ms : List Mask} {b : Bool} (hk : okAll tm u h I s c ms b) :
    SturdyBy tm u h I s (okAll tm u h I s) := by
  obtain ⟨ok, h1, h2⟩ := hk
  exact Sturdy.all ⟨ok, h1⟩

theorem muSelectSome_nub {n i L : Nat} {B : Nat → Nat → Prop} (hB : ∀ k, B k (n + 1)) (hn : 0 < n)
    (hnD : n < I.D) (hi : i < width I.N) : ∀ (ks : List Nat) (cs : List (S × C)) (ne : List Nat)
    (acc : Mask), cs.length = L → (∀ k ∈ ks, k < L) → ne.length + ks.length ≤ multiCap →
    (∀ k ∈ ne, k < L) → acc.length = I.N →
    MUSrc tm u h I cs (fun k v => B k v ∧ (k ∈ ks → n ≤ v) ∧ (k ∈ ne → n + 1 ≤ v)) →
    Nub tm (muSelectSome I n i ks cs ne acc) (fun r => r.1.length = I.N ∧ r.2.1.length = L ∧
      r.2.2.length ≤ ne.length + ks.length ∧ (∀ k ∈ r.2.2, k < L) ∧
      MUSrc tm u h I r.2.1 (fun k v => B k v ∧ (k ∈ r.2.2 → n + 1 ≤ v)) ∧
      (∀ j, r.1.bit j = true → acc.bit j = true ∨ r.2.2 ≠ []) ∧ (ne ≠ [] → r.2.2 ≠ [])) := by
  intro ks
  induction ks with
  | nil =>
    intro cs ne acc hL _ _ hne hl hsrc
    refine Nub.ok ⟨hl, hL, by simp, hne, ?_, fun j hj => Or.inl hj, fun e => e⟩
    intro k s cc hk
    obtain ⟨ms, h1, h2, _, h3⟩ := hsrc k s cc hk
    exact ⟨ms, h1, h2, h3⟩
  | cons k ks ih =>
    intro cs ne acc hL hks hcap hne hl hsrc
    have hkl : k < cs.length := by rw [hL]; exact hks k (by simp)
    have hget : cs[k]? = some cs[k] := List.getElem?_eq_getElem hkl
    rw [muSelectSome, getU_some hget]
    generalize cs[k] = x at hget
    obtain ⟨s, c⟩ := x
    simp only [bind_ok]
    obtain ⟨msk, g1, g2, g3, g4⟩ := hsrc k s c hget
    refine ((okAll_by g1).select c msk true n i g1 (g3 (by simp)) hnD hi (by omega)).bind ?_
    rintro ⟨m, c'⟩ ⟨hm, hok⟩
    simp only at hm hok ⊢
    rw [setU_ok _ hkl]
    simp only [bind_ok]
    have hlen' : (msk.take n ++ [m]).length = n + 1 := by
      have := g3 (by simp)
      simp; omega
    simp only [List.length_cons] at hcap
    -- the state after this source
    have step : ∀ ne' : List Nat, (∀ k' ∈ ne', k' ∈ ne ∨ k' = k) →
        MUSrc tm u h I (cs.set k (s, c'))
          (fun k v => B k v ∧ (k ∈ ks → n ≤ v) ∧ (k ∈ ne' → n + 1 ≤ v)) := by
      intro ne' hne' k' s1 c1 hk'
      rw [List.getElem?_set] at hk'
      split at hk'
      · rename_i e
        subst e
        cases hk'
        exact ⟨_, hok, by rw [hlen']; exact hB k, fun _ => by rw [hlen']; omega,
          fun _ => by rw [hlen']; omega⟩
      · rename_i e
        obtain ⟨ms1, q1, q2, q3, q4⟩ := hsrc k' s1 c1 hk'
        refine ⟨ms1, q1, q2, fun hk => q3 (by simp [hk]), fun hk => ?_⟩
        rcases hne' k' hk with hk | hk
        · exact q4 hk
        · exact absurd hk.symm e
    cases hz : isZero m with
    | true =>
      simp only [Bool.not_true, Bool.false_eq_true, if_false, pure_eq_ok, bind_ok]
      refine (ih (cs.set k (s, c')) ne (orMask acc m) (by simp [hL])
        (fun k hk => hks k (by simp [hk])) (by omega) hne (by rw [length_orMask (by omega), hl])
        (step ne fun k hk => Or.inl hk)).imp ?_
      rintro ⟨m', cs', ne'⟩ ⟨r1, r2, r3, r4, r5, r6, r7⟩
      refine ⟨r1, r2, by simp only [List.length_cons] at r3 ⊢; omega, r4, r5, fun j hj => ?_, r7⟩
      rcases r6 j hj with hb | hb
      · rw [bit_orMask (by omega), (isZero_iff m).1 hz j, Bool.or_false] at hb
        exact Or.inl hb
      · exact Or.inr hb
    | false =>
      simp only [Bool.not_false, if_true]
      have hp : avPushU ne k = .ok (ne ++ [k]) := by
        unfold avPushU
        rw [if_pos (by omega)]
      rw [hp]
      simp only [bind_ok]
      refine (ih (cs.set k (s, c')) (ne ++ [k]) (orMask acc m) (by simp [hL])
        (fun k hk => hks k (by simp [hk])) (by simp; omega) ?_ (by rw [length_orMask (by omega), hl])
        (step (ne ++ [k]) fun k' hk => by simpa using hk)).imp ?_
      · intro k' hk'
        rcases List.mem_append.1 hk' with hk' | hk'
        · exact hne k' hk'
        · simp at hk'; rw [hk']; exact hks k (by simp)
      rintro ⟨m', cs', ne'⟩ ⟨r1, r2, r3, r4, r5, r6, r7⟩
      have hne'' : ne' ≠ [] := r7 (by simp)
      refine ⟨r1, r2, ?_, r4, r5, fun j hj => Or.inr hne'', fun _ => hne''⟩
      simp only [List.length_cons, List.length_append, List.length_nil] at r3 ⊢
      omega

/-- The cursor of a `multi_union` of trees with possibly wrong answers. -/
structure MUOk (tm u h : Bool) (I : Impl S C δ) (c : MUCursor S C) (ms : List Mask) : Prop where
  cap : c.cursors.length ≤ multiCap
  lvls : c.lvls.length = I.D - 1
  len : ms.length ≤ I.D
  src : MUSrc tm u h I c.cursors (fun k v => (0 < ms.length → 1 ≤ v) ∧
    ∀ (l : Nat) (lst : List Nat), 0 < l → l < ms.length → c.lvls[l - 1]? = some lst → k ∈ lst →
      l + 1 ≤ v)
  lists : ∀ (l : Nat) (lst : List Nat), c.lvls[l]? = some lst →
    lst.length ≤ multiCap ∧ ∀ k ∈ lst, k < c.cursors.length
  honest : ∀ (l : Nat) (m : Mask) (lst : List Nat), 0 < l → ms[l]? = some m →
    c.lvls[l - 1]? = some lst → ∀ j, m.bit j = true → lst ≠ []

theorem muSelect_nub (hcfg : ValidCfg I.N I.D) {c : MUCursor S C} {ms : List Mask}
    (hc : MUOk tm u h I c ms) {n i : Nat} (hn : n ≤ ms.length) (hnD : n < I.D) (hi : i < width I.N)
    (h0 : n = 0 → i = 0) :
    Nub tm (muSelect I c n i) (fun r => r.1.length = I.N ∧ MUOk tm u h I r.2 (ms.take n ++ [r.1])) := by
  unfold muSelect
  by_cases hz : n = 0
  · subst hz
    simp only [if_true]
    refine (muSelectRoot_nub (P := fun _ _ => True)
      (Q := fun s c => ∃ ms, okAll tm u h I s c ms true ∧ ms.length = 1) c.cursors (zeroMask I.N) ?_
      (by simp)).bind ?_
    · intro s cc hm
      obtain ⟨k, hk⟩ := List.getElem?_of_mem hm
      obtain ⟨msk, g1, -⟩ := hc.src k s cc hk
      refine ((okAll_by g1).select cc msk true 0 i g1 (by simp) hnD hi h0).imp ?_
      rintro ⟨m, c'⟩ ⟨q1, q2⟩
      exact ⟨q1, _, q2, by simp⟩
    · rintro ⟨m, cs⟩ ⟨h1, h2, h3⟩
      refine Nub.pure ⟨h1, ?_⟩
      exact
        { cap := by rw [h2]; exact hc.cap
          lvls := hc.lvls
          len := by simp; omega
          src := by
            intro k s cc hk
            obtain ⟨ms', q1, q2⟩ := h3 s cc (List.mem_of_getElem? hk)
            refine ⟨ms', q1, fun _ => by omega, fun l lst hl hl' => ?_⟩
            simp at hl'; omega
          lists := by
            intro l lst hl
            have := hc.lists l lst hl
            refine ⟨this.1, fun k hk => ?_⟩
            show k < cs.length
            rw [h2]; exact this.2 k hk
          honest := by
            intro l m' lst hl hm
            have := (List.getElem?_eq_some_iff.1 hm).1
            simp at this; omega }
  · rw [if_neg hz]
    have hlv : n - 1 < c.lvls.length := by rw [hc.lvls]; omega
    rw [setU_ok _ hlv]
    simp only [bind_ok]
    -- the sources to visit
    have hgo : ∀ ks : List Nat, ks.length ≤ multiCap → (∀ k ∈ ks, k < c.cursors.length) →
        MUSrc tm u h I c.cursors (fun k v => ((0 < ms.length → 1 ≤ v) ∧
          ∀ (l : Nat) (lst : List Nat), 0 < l → l < n → c.lvls[l - 1]? = some lst → k ∈ lst →
            l + 1 ≤ v) ∧ (k ∈ ks → n ≤ v)) →
        Nub tm (muSelectSome I n i ks c.cursors [] (zeroMask I.N) >>= fun r => do
            let lvls ← setU (c.lvls.set (n - 1) []) (n - 1) r.2.2
            Pure.pure (r.1, (⟨r.2.1, lvls⟩ : MUCursor S C)))
          (fun r => r.1.length = I.N ∧ MUOk tm u h I r.2 (ms.take n ++ [r.1])) := by
      intro ks hcap hks hsrc
      refine (muSelectSome_nub (u := u) (h := h) (L := c.cursors.length)
        (B := fun k v => (0 < ms.length → 1 ≤ v) ∧
          ∀ (l : Nat) (lst : List Nat), 0 < l → l < n → c.lvls[l - 1]? = some lst → k ∈ lst →
            l + 1 ≤ v) ?_ (by omega) hnD hi ks c.cursors [] (zeroMask I.N) rfl hks
        (by simpa using hcap) (by simp) (by simp) ?_).bind ?_
      · exact fun k => ⟨fun _ => by omega, fun l lst h1 h2 _ _ => by omega⟩
      · intro k s cc hk
        obtain ⟨ms1, q1, q2, q3⟩ := hsrc k s cc hk
        exact ⟨ms1, q1, q2, q3, fun e => by simp at e⟩
      · rintro ⟨m, cs, ne⟩ ⟨r1, r2, r3, r4, r5, r6, -⟩
        simp only at r1 r2 r3 r4 r5 r6 ⊢
        rw [setU_ok _ (by simpa using hlv)]
        simp only [bind_ok]
        have hset : (c.lvls.set (n - 1) []).set (n - 1) ne = c.lvls.set (n - 1) ne := by
          rw [List.set_set]
        rw [hset]
        have htl : (ms.take n ++ [m]).length = n + 1 := by simp; omega
        have hlv' : ∀ (l : Nat) (lst : List Nat), (c.lvls.set (n - 1) ne)[l]? = some lst →
            (l = n - 1 ∧ lst = ne) ∨ (l ≠ n - 1 ∧ c.lvls[l]? = some lst) := by
          intro l lst hl
          rw [List.getElem?_set] at hl
          split at hl
          · rename_i e
            cases hl
            exact Or.inl ⟨e.symm, rfl⟩
          · rename_i e
            exact Or.inr ⟨fun e' => e e'.symm, hl⟩
        refine Nub.pure ⟨r1, ?_⟩
        exact
          { cap := by rw [r2]; exact hc.cap
            lvls := by simp [hc.lvls]
            len := by rw [htl]; omega
            src := by
              intro k s cc hk
              obtain ⟨ms', q1, q2, q3⟩ := r5 k s cc hk
              refine ⟨ms', q1, fun _ => q2.1 (by omega), fun l lst hl hl' hg hm => ?_⟩
              rw [htl] at hl'
              rcases hlv' _ _ hg with ⟨e1, e2⟩ | ⟨e1, e2⟩
              · subst e2
                have := q3 hm
                omega
              · exact q2.2 l lst hl (by omega) e2 hm
            lists := by
              intro l lst hl
              show _ ∧ ∀ k ∈ lst, k < cs.length
              rw [r2]
              rcases hlv' _ _ hl with ⟨e1, e2⟩ | ⟨e1, e2⟩
              · subst e2
                refine ⟨?_, r4⟩
                simp only [List.length_nil] at r3
                omega
              · exact hc.lists l lst e2
            honest := by
              intro l m' lst hl hm hg j hj
              have hll : l < n + 1 := by
                have := (List.getElem?_eq_some_iff.1 hm).1
                rw [htl] at this; exact this
              rcases hlv' _ _ hg with ⟨e1, e2⟩ | ⟨e1, e2⟩
              · have e : l = n := by omega
                subst e
                rw [List.getElem?_append_right (by simp; omega),
                  show l - (ms.take l).length = 0 by simp; omega] at hm
                cases hm
                rw [e2]
                rcases r6 j hj with hb | hb
                · simp at hb
                · exact hb
              · rw [List.getElem?_append_left (by simp; omega),
                  List.getElem?_take_of_lt (by omega)] at hm
                exact hc.honest l m' lst hl hm e2 j hj }
    have hrest : ∀ (k : Nat) (s : S) (cc : C), c.cursors[k]? = some (s, cc) →
        ∃ ms1, okAll tm u h I s cc ms1 true ∧ ((0 < ms.length → 1 ≤ ms1.length) ∧
          ∀ (l : Nat) (lst : List Nat), 0 < l → l < ms.length → c.lvls[l - 1]? = some lst →
            k ∈ lst → l + 1 ≤ ms1.length) := fun k s cc hk => hc.src k s cc hk
    by_cases h1 : n = 1
    · subst h1
      simp only [if_true, pure_eq_ok, bind_ok]
      have hcur := hc.cap
      refine hgo _ ?_ ?_ ?_
      · have := Nat.mod_le c.cursors.length 256
        simp; omega
      · intro k hk
        have := Nat.mod_le c.cursors.length 256
        simp at hk; omega
      · intro k s cc hk
        obtain ⟨ms1, q1, q2, q3⟩ := hrest k s cc hk
        exact ⟨ms1, q1, ⟨q2, fun l lst a1 a2 => by omega⟩, fun _ => q2 (by omega)⟩
    · rw [if_neg h1]
      have hlv2 : n - 2 < c.lvls.length := by omega
      have hg : (c.lvls.set (n - 1) [])[n - 2]? = some c.lvls[n - 2] := by
        rw [List.getElem?_set_ne (by omega)]; exact List.getElem?_eq_getElem hlv2
      have hg' : c.lvls[n - 2]? = some c.lvls[n - 2] := List.getElem?_eq_getElem hlv2
      rw [getU_some hg]
      simp only [bind_ok]
      have hli := hc.lists _ _ hg'
      refine hgo _ hli.1 hli.2 ?_
      intro k s cc hk
      obtain ⟨ms1, q1, q2, q3⟩ := hrest k s cc hk
      refine ⟨ms1, q1, ⟨q2, fun l lst a1 a2 a3 a4 => q3 l lst a1 (by omega) a3 a4⟩, fun hm => ?_⟩
      have := q3 (n - 1) _ (by omega) (by omega) hg' hm
      omega

theorem muCursorData_nub {cs : List (S × C)} {i : Nat} (hi : i < width I.N) : ∀ (ks : List Nat),
    (∀ k ∈ ks, k < cs.length) → (∀ k ∈ ks, ∀ s cc, cs[k]? = some (s, cc) →
      Nub tm (I.curData cc s i) (fun _ => True)) →
    Nub tm (muCursorData I cs i ks) (fun _ => True) := by
  intro ks
  induction ks with
  | nil => intro _ _; exact Nub.ok trivial
  | cons k ks ih =>
    intro hk hd
    rw [muCursorData]
    refine (Nub.getU (P := fun x => cs[k]? = some x) (hk k (by simp)) fun a e => e).bind ?_
    rintro ⟨s, c⟩ hget
    refine (hd k (by simp) s c hget).bind fun d _ => ?_
    refine (ih (fun k h => hk k (by simp [h])) (fun k h => hd k (by simp [h]))).bind fun r _ => ?_
    cases d <;> exact Nub.pure trivial

theorem muCurData_nub (hcfg : ValidCfg I.N I.D) {c : MUCursor S C} {ms : List Mask}
    (hc : MUOk tm u h I c ms) {i : Nat}
    (hl : ms.length = I.D) (hi : i < width I.N) :
    Nub tm (muCurData I c i) (fun d => ∀ (m : Mask), ms[I.D - 1]? = some m → m.bit i = true →
      d.isSome = true) := by
  unfold muCurData
  have hD := hcfg.depth
  by_cases h1 : I.D = 1
  · rw [if_pos h1]; exact Nub.panic
  · rw [if_neg h1]
    have hlv : I.D - 2 < c.lvls.length := by rw [hc.lvls]; omega
    have hlast : c.lvls.getLast? = some c.lvls[I.D - 2] := by
      rw [List.getLast?_eq_getElem?, hc.lvls, ← List.getElem?_eq_getElem hlv]
      congr 1
    have hg' : c.lvls[I.D - 2]? = some c.lvls[I.D - 2] := List.getElem?_eq_getElem hlv
    rw [hlast]
    generalize c.lvls[I.D - 2] = ne at hg'
    show Nub tm (if ne.isEmpty = true then _ else _) _
    by_cases hne : ne.isEmpty = true
    · rw [if_pos hne]
      refine Nub.pure fun m hm hb => ?_
      exact absurd (List.isEmpty_iff.1 hne)
        (hc.honest (I.D - 1) m ne (by omega) hm (by rw [← hg']; congr 1) i hb)
    · rw [if_neg hne]
      refine (muCursorData_nub hi ne (hc.lists _ _ hg').2 ?_).bind fun d _ =>
        Nub.pure fun _ _ _ => rfl
      intro k hk s cc hget
      obtain ⟨ms1, q1, q2, q3⟩ := hc.src k s cc hget
      have h2 := q3 (I.D - 1) ne (by omega) (by omega) (by rw [← hg']; congr 1) hk
      have h3 := (okAll_by q1).len cc ms1 true q1
      exact ((okAll_by q1).curData cc ms1 i q1 (by omega) hi).imp fun _ _ => trivial

/-- `multi_union`: its cursor only uses the sources' checked methods. -/
theorem multiUnion_sturdy (hcfg : ValidCfg I.N I.D) {ss : List S} (hs : ∀ s ∈ ss, Sturdy tm u h I s) :
    Sturdy tm true true (multiUnionImpl I) ss := by
  refine ⟨fun c ms _ => MUOk tm u h I c ms, hcfg, fun c ms b hc => hc.len, ?_, ?_, ?_, ?_, ?_, ?_⟩
  · intro p hp hl
    refine (muGather_nub ss (fun s hm => (hs s hm).all.data p hp hl) []).bind fun ds _ => ?_
    split <;> exact Nub.pure trivial
  · refine (avCursors_nub (P := fun s c => okAll tm u h I s c [] true) ss
      (fun s hm => (hs s hm).all.create) [] (by simp) (by simp)).bind ?_
    rintro cs ⟨h1, h2⟩
    refine Nub.pure ?_
    exact
      { cap := h1
        lvls := by simp
        len := by simp
        src := fun k s cc hk => ⟨[], h2 s cc (List.mem_of_getElem? hk), by simp, by simp⟩
        lists := by
          intro l lst hl
          simp only at hl
          rw [List.getElem?_replicate] at hl
          split at hl
          · cases hl; simp
          · cases hl
        honest := by intro l m lst _ hm; simp at hm }
  · intro c ms b n i hc hn hnD hi h0
    exact muSelect_nub hcfg hc hn hnD hi h0
  · intro c ms b n i hc hn hnD hi h0 _
    exact muSelect_nub hcfg hc hn hnD hi h0
  · intro c ms i hc hl hi
    exact (muCurData_nub hcfg hc hl hi).imp fun d hd _ => hd
  · intro _ c ms b i hc hl hi hbit
    refine (muCurData_nub hcfg hc hl hi).bind fun d hd => ?_
    have hD := hcfg.depth
    have hl' : ms.length = I.D := hl
    have n2 : I.D - 1 < ms.length := by omega
    have := hd _ (List.getElem?_eq_getElem n2) (hbit _ (List.getElem?_eq_getElem n2))
    obtain ⟨y, rfl⟩ := Option.isSome_iff_exists.1 this
    exact Nub.unwrapU ⟨y, rfl, trivial⟩

/-! ### `multi_intersection` -/

/-- The cursors of a `multi_intersection` go with its sources; the masks announced are contained in
those of each source. -/
def MISrc (tm u h : Bool) (I : Impl S C δ) (ms : List Mask) (b : Bool) : List C → List S → Prop
  | [], [] => True
  | c :: cs, s :: ss => (∃ ms', okAll tm u h I s c ms' b ∧ ms'.length = ms.length ∧
      ∀ (l : Nat) (m m' : Mask), ms[l]? = some m → ms'[l]? = some m' →
        ∀ j, m.bit j = true → m'.bit j = true) ∧ MISrc tm u h I ms b cs ss
  | _, _ => False

theorem miCursors_nub {new : S → R C} : ∀ (ss : List S),
    (∀ s ∈ ss, Nub tm (new s) (fun c => okAll tm u h I s c [] true)) → ∀ acc : List C,
    Nub tm (miCursors new ss acc) (fun cs => ∃ cs', cs = acc ++ cs' ∧ MISrc tm u h I [] true cs' ss) := by
  intro ss
  induction ss with
  | nil => intro _ acc; exact Nub.ok ⟨[], by simp, trivial⟩
  | cons s ss ih =>
    intro hn acc
    rw [miCursors]
    refine (hn s (by simp)).bind fun c hc => ?_
    refine avPush_nub.bind ?_
    rintro acc' ⟨rfl, -⟩
    refine (ih (fun s hs => hn s (by simp [hs])) _).imp ?_
    rintro cs ⟨cs', rfl, hm⟩
    exact ⟨c :: cs', by simp, ⟨[], hc, rfl, by simp⟩, hm⟩

/-- One selecting step of one source, by either method. -/
def MISel (tm u h : Bool) (I : Impl S C δ) (ms : List Mask) (n : Nat) (b b' : Bool)
    (sel : C → S → R (Mask × C)) : Prop :=
  ∀ c s ms', okAll tm u h I s c ms' b → ms'.length = ms.length →
    (∀ (l : Nat) (m m' : Mask), ms[l]? = some m → ms'[l]? = some m' →
        ∀ j, m.bit j = true → m'.bit j = true) →
    Nub tm (sel c s) (fun r => r.1.length = I.N ∧ okAll tm u h I s r.2 (ms'.take n ++ [r.1]) b')

/-- Appending a smaller mask. -/
theorem sub_snoc {ms ms' : List Mask} {n : Nat} (hl : ms'.length = ms.length) (hn : n ≤ ms.length)
    (hsub : ∀ (l : Nat) (m m' : Mask), ms[l]? = some m → ms'[l]? = some m' →
        ∀ j, m.bit j = true → m'.bit j = true) {M M' : Mask}
    (hM : ∀ j, M.bit j = true → M'.bit j = true) :
    (ms'.take n ++ [M']).length = (ms.take n ++ [M]).length ∧
    ∀ (l : Nat) (m m' : Mask), (ms.take n ++ [M])[l]? = some m → (ms'.take n ++ [M'])[l]? = some m' →
        ∀ j, m.bit j = true → m'.bit j = true := by
  refine ⟨by simp; omega, ?_⟩
  intro l m m' e e'
  have hlt : l < n + 1 := by
    have := (List.getElem?_eq_some_iff.1 e).1
    simp at this; omega
  by_cases hln : l = n
  · subst hln
    rw [List.getElem?_append_right (by simp; omega),
      show l - (ms.take l).length = 0 by simp; omega] at e
    rw [List.getElem?_append_right (by simp; omega),
      show l - (ms'.take l).length = 0 by simp; omega] at e'
    cases e; cases e'
    exact hM
  · rw [List.getElem?_append_left (by simp; omega), List.getElem?_take_of_lt (by omega)] at e e'
    exact hsub l m m' e e'

theorem miSelectRest_nub {ms : List Mask} {n : Nat} {b b' : Bool} {sel : C → S → R (Mask × C)}
    (hn : n ≤ ms.length) (hsel : MISel tm u h I ms n b b' sel) : ∀ (cs : List C) (ss : List S) (acc : Mask),
    MISrc tm u h I ms b cs ss → acc.length = I.N →
    Nub tm (miSelectRest sel cs ss acc) (fun r => r.1.length = I.N ∧
      (∀ j, r.1.bit j = true → acc.bit j = true) ∧
      ∀ M : Mask, (∀ j, M.bit j = true → r.1.bit j = true) →
        MISrc tm u h I (ms.take n ++ [M]) b' r.2 ss) := by
  intro cs
  induction cs with
  | nil =>
    intro ss acc hm hl
    cases ss with
    | nil => exact Nub.ok ⟨hl, fun j hj => hj, fun _ _ => trivial⟩
    | cons s ss => exact hm.elim
  | cons c cs ih =>
    intro ss acc hm hl
    cases ss with
    | nil => exact hm.elim
    | cons s ss =>
      obtain ⟨⟨ms', g1, g2, g3⟩, hrest⟩ := hm
      rw [miSelectRest]
      simp only [List.head?_cons, unwrapU, bind_ok, List.tail_cons]
      refine (hsel c s ms' g1 g2 g3).bind ?_
      rintro ⟨m, c'⟩ ⟨hml, hok⟩
      simp only at hml hok ⊢
      refine (ih ss (andMask acc m) hrest (by rw [length_andMask (by omega), hl])).bind ?_
      rintro ⟨acc', cs'⟩ ⟨r1, r2, r3⟩
      simp only at r1 r2 r3
      refine Nub.pure ⟨r1, fun j hj => ?_, fun M hM => ?_⟩
      · have := r2 j hj
        rw [bit_andMask (by omega), Bool.and_eq_true] at this
        exact this.1
      · refine ⟨⟨ms'.take n ++ [m], hok, sub_snoc g2 hn g3 fun j hj => ?_⟩, r3 M hM⟩
        have := r2 j (hM j hj)
        rw [bit_andMask (by omega), Bool.and_eq_true] at this
        exact this.2

theorem miSelectAll_nub {ms : List Mask} {n : Nat} {b b' : Bool} {sel : C → S → R (Mask × C)}
    (hn : n ≤ ms.length) (hsel : MISel tm u h I ms n b b' sel) (cs : List C) (ss : List S)
    (hm : MISrc tm u h I ms b cs ss) :
    Nub tm (miSelectAll sel cs ss) (fun r => (r = none ∧ cs = []) ∨ ∃ m cs', r = some (m, cs') ∧
      cs' ≠ [] ∧ m.length = I.N ∧ MISrc tm u h I (ms.take n ++ [m]) b' cs' ss) := by
  cases cs with
  | nil => exact Nub.ok (Or.inl ⟨rfl, rfl⟩)
  | cons c cs =>
    cases ss with
    | nil => exact hm.elim
    | cons s ss =>
      obtain ⟨⟨ms', g1, g2, g3⟩, hrest⟩ := hm
      simp only [miSelectAll, List.head?_cons, unwrapU, bind_ok, List.tail_cons]
      refine (hsel c s ms' g1 g2 g3).bind ?_
      rintro ⟨m, c'⟩ ⟨hml, hok⟩
      simp only at hml hok ⊢
      refine (miSelectRest_nub hn hsel cs ss m hrest hml).bind ?_
      rintro ⟨acc', cs'⟩ ⟨r1, r2, r3⟩
      refine Nub.pure (Or.inr ⟨acc', c' :: cs', rfl, by simp, r1, ?_, r3 acc' fun j hj => hj⟩)
      exact ⟨ms'.take n ++ [m], hok, sub_snoc g2 hn g3 r2⟩

theorem miCursorData_nub {i : Nat} {ms : List Mask} {b : Bool} (hl : ms.length = I.D) (hD : 0 < I.D)
    (hi : i < width I.N) (hbit : ∀ (m : Mask), ms[I.D - 1]? = some m → m.bit i = true) :
    ∀ (cs : List C) (ss : List S), MISrc tm true h I ms b cs ss →
    Nub tm (miCursorData I i cs ss) (fun _ => True) := by
  intro cs
  induction cs with
  | nil => intro ss _; exact Nub.ok trivial
  | cons c cs ih =>
    intro ss hm
    cases ss with
    | nil => exact hm.elim
    | cons s ss =>
      obtain ⟨⟨ms', g1, g2, g3⟩, hrest⟩ := hm
      rw [miCursorData]
      simp only [List.head?_cons, unwrapU, bind_ok, List.tail_cons]
      refine ((okAll_by g1).curDataU rfl c ms' b i g1 (by omega) hi ?_).bind fun d _ => ?_
      · intro m hm'
        have n2 : I.D - 1 < ms.length := by omega
        exact g3 _ _ m (List.getElem?_eq_getElem n2) hm' i (hbit _ (List.getElem?_eq_getElem n2))
      · exact (ih ss hrest).bind fun _ _ => Nub.pure trivial

/-- The cursor of a `multi_intersection` of trees with possibly wrong answers. -/
structure MIOk (tm h : Bool) (I : Impl S C δ) (ss : List S) (c : MICursor C) (ms : List Mask) (b : Bool) :
    Prop where
  len : ms.length ≤ I.D
  src : MISrc tm true h I ms b c.cursors ss
  below : multiCap ≤ c.emptyBelowN
  term : c.terminalMask.length = I.N
  empty : c.cursors = [] → ∀ j, c.terminalMask.bit j = false
  mask : b = true → ms.length = I.D → ∀ (m : Mask), ms[I.D - 1]? = some m →
    ∀ j, m.bit j = c.terminalMask.bit j

theorem MISrc.none {ms : List Mask} {b : Bool} {ss : List S} (hm : MISrc tm u h I ms b [] ss)
    (ms' : List Mask) (b' : Bool) : MISrc tm u h I ms' b' [] ss := by
  cases ss with
  | nil => trivial
  | cons s ss => exact hm.elim

/-- `multi_intersection` -/
theorem multiInter_sturdyBy (hcfg : ValidCfg I.N I.D) {ss : List S}
    (hs : ∀ s ∈ ss, Sturdy tm true h I s) :
    SturdyBy tm true true (multiInterImpl I) ss (fun c ms b => MIOk tm h I ss c ms b) := by
  have hD := hcfg.depth
  have hN : 0 < I.N := by rcases hcfg.words with e | e | e <;> omega
  refine ⟨hcfg, fun c ms b hc => hc.len, ?_, ?_, ?_, ?_, ?_, ?_⟩
  · intro p hp hl
    exact miGather_nub ss (fun s hm => (hs s hm).all.data p hp hl) []
  · refine (miCursors_nub (u := true) (h := h) (I := I) ss (fun s hm => (hs s hm).all.create) []).bind ?_
    rintro cs ⟨cs', rfl, hm⟩
    refine Nub.pure ?_
    exact
      { len := by simp
        src := hm
        below := by simp [multiCap, usizeMod]
        term := by simp
        empty := by simp
        mask := by intro _ e; simp at e; omega }
  · intro c ms b n i hc hn hnD hi h0
    show Nub tm (miSelect I c ss n i) _
    unfold miSelect
    rw [if_neg (by have := hc.below; omega)]
    refine (miSelectAll_nub (b' := true) hn (n := n) ?_ c.cursors ss hc.src).bind ?_
    · intro c1 s1 ms' g1 g2 _
      exact (okAll_by g1).select c1 ms' b n i g1 (by omega) hnD hi h0
    · rintro r (⟨rfl, he⟩ | ⟨m, cs', rfl, hne, hml, hsrc⟩)
      · refine Nub.pure ⟨by simp; rfl, ?_⟩
        exact
          { len := by simp; have := hc.len; exact Nat.lt_of_le_of_lt (Nat.min_le_left _ _) hnD
            src := by rw [he]; exact (he ▸ hc.src).none _ _
            below := hc.below
            term := hc.term
            empty := hc.empty
            mask := by
              intro _ hl m' hm j
              rw [hc.empty he j]
              have hnn : n = I.D - 1 := by
                have hl' : (ms.take n ++ [zeroMask I.N]).length = I.D := hl
                simp at hl'; omega
              have hm' : (ms.take n ++ [zeroMask I.N])[I.D - 1]? = some m' := hm
              rw [List.getElem?_append_right (by simp; omega),
                show I.D - 1 - (ms.take n).length = 0 by simp; omega] at hm'
              cases hm'
              simp }
      · refine Nub.pure ⟨hml, ?_⟩
        have htl : (ms.take n ++ [m]).length = n + 1 := by simp; omega
        exact
          { len := by show (ms.take n ++ [m]).length ≤ I.D; rw [htl]; exact hnD
            src := hsrc
            below := by
              show multiCap ≤ (if isZero m = true then multiCap else usizeMod - 1)
              split
              · exact Nat.le_refl _
              · simp [multiCap, usizeMod]
            term := by
              show (if n = I.D - 1 then m else c.terminalMask).length = I.N
              split
              · exact hml
              · exact hc.term
            empty := fun e => absurd e hne
            mask := by
              intro _ hl m' hm j
              have hl' : (ms.take n ++ [m]).length = I.D := hl
              rw [htl] at hl'
              have hm' : (ms.take n ++ [m])[I.D - 1]? = some m' := hm
              rw [List.getElem?_append_right (by simp; omega),
                show I.D - 1 - (ms.take n).length = 0 by simp; omega] at hm'
              cases hm'
              show m.bit j = (if n = I.D - 1 then m else c.terminalMask).bit j
              rw [if_pos (by omega)] }
  · intro c ms b n i hc hn hnD hi h0 hbit
    show Nub tm (miSelectU I c ss n i) _
    unfold miSelectU
    refine (miSelectAll_nub (b' := false) hn (n := n) ?_ c.cursors ss hc.src).bind ?_
    · intro c1 s1 ms' g1 g2 g3
      refine (okAll_by g1).selectU c1 ms' b n i g1 (by omega) hnD hi h0 ?_
      intro m hpos hm
      have n2 : n - 1 < ms.length := by omega
      exact g3 _ _ m (List.getElem?_eq_getElem n2) hm i (hbit _ hpos (List.getElem?_eq_getElem n2))
    · rintro r (⟨rfl, he⟩ | ⟨m, cs', rfl, hne, hml, hsrc⟩)
      · refine Nub.pure ⟨by simp; rfl, ?_⟩
        exact
          { len := by simp; have := hc.len; exact Nat.lt_of_le_of_lt (Nat.min_le_left _ _) hnD
            src := by rw [he]; exact (he ▸ hc.src).none _ _
            below := hc.below
            term := hc.term
            empty := hc.empty
            mask := fun e => by cases e }
      · refine Nub.pure ⟨hml, ?_⟩
        have htl : (ms.take n ++ [m]).length = n + 1 := by simp; omega
        exact
          { len := by show (ms.take n ++ [m]).length ≤ I.D; rw [htl]; exact hnD
            src := hsrc
            below := hc.below
            term := hc.term
            empty := fun e => absurd e hne
            mask := fun e => by cases e }
  · intro c ms i hc hl hi
    have hl' : ms.length = I.D := hl
    have n2 : I.D - 1 < ms.length := by omega
    have hmask := hc.mask rfl hl _ (List.getElem?_eq_getElem n2)
    show Nub tm (getBit c.terminalMask i >>= _) _
    rw [getBit_eq c.terminalMask (by rw [hc.term]; exact hi)]
    simp only [bind_ok]
    cases hb : Mask.bit c.terminalMask i with
    | false =>
      refine Nub.pure fun _ m hm hb' => ?_
      have hm' : ms[I.D - 1]? = some m := hm
      rw [List.getElem?_eq_getElem n2] at hm'
      cases hm'
      rw [hmask, hb] at hb'
      cases hb'
    | true =>
      refine (miCursorData_nub hl' hD hi ?_ c.cursors ss hc.src).bind fun _ _ =>
        Nub.pure fun _ _ _ _ => rfl
      intro m hm
      rw [List.getElem?_eq_getElem n2] at hm
      cases hm
      rw [hmask, hb]
  · intro _ c ms b i hc hl hi hbit
    exact miCursorData_nub (I := I) hl hD hi hbit c.cursors ss hc.src

theorem multiInter_sturdy (hcfg : ValidCfg I.N I.D) {ss : List S}
    (hs : ∀ s ∈ ss, Sturdy tm true h I s) : Sturdy tm true true (multiInterImpl I) ss :=
  ⟨_, multiInter_sturdyBy hcfg hs⟩

end

end Hibit
