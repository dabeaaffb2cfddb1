import Verif.Props.Trees
/-!
# Exactly where C34, C37, C38, C39 hold and fail

`multi_union` / `multi_intersection` outside of the domain of C34 and C35: depth 1, no trees, more than
32 trees, and the checked cursor `data` of `multi_union`.
-/
namespace Hibit.Props
open Hibit

/-! ## An iterator all of whose level iterators are exhausted -/

theorem dead_next {N : Nat} {q : BitsIter} (h : q.Wf N) (r : q.rem = []) :
    ∃ q', q.next = .ok (none, q') ∧ q'.Wf N ∧ q'.rem = [] := by
  obtain ⟨q', e, h', r'⟩ := next_spec h
  rw [r] at e r'
  exact ⟨q', e, h', r'⟩

theorem dead_set {N : Nat} (l : List BitsIter) (hl : ∀ q ∈ l, q.Wf N ∧ q.rem = []) {n : Nat}
    {q : BitsIter} (hq : l[n]? = some q) : ∃ q', q.next = .ok (none, q') ∧
      ∀ x ∈ l.set n q', x.Wf N ∧ x.rem = [] := by
  obtain ⟨h1, h2⟩ := hl q (List.mem_of_getElem? hq)
  obtain ⟨q', e, h1', h2'⟩ := dead_next h1 h2
  refine ⟨q', e, fun x hx => ?_⟩
  rcases List.mem_or_eq_of_mem_set hx with h | h
  · exact hl x h
  · rw [h]; exact ⟨h1', h2'⟩

section
variable {S C δ : Type} {I : Impl S C δ} {s : S}

theorem dead_visit : ∀ (l : List Nat) (st : IterSt C), st.iters.length = I.D →
    (∀ q ∈ st.iters, q.Wf I.N ∧ q.rem = []) → (∀ x ∈ l, x < I.D) →
    ∃ st', visitList (I.iterVisit s) l st = .ok (st', false) ∧ st'.iters.length = I.D ∧
      ∀ q ∈ st'.iters, q.Wf I.N ∧ q.rem = [] := by
  intro l
  induction l with
  | nil => intro st h1 h2 _; exact ⟨st, rfl, h1, h2⟩
  | cons x l ih =>
    intro st hlen hq hx
    have hxl : x < st.iters.length := by rw [hlen]; exact hx x (by simp)
    obtain ⟨q', e, hq'⟩ := dead_set st.iters hq (List.getElem?_eq_getElem hxl)
    obtain ⟨st', e', g⟩ := ih ⟨st.iters.set x q', st.lidx, st.cur⟩ (by simp [hlen]) hq'
      (fun y hy => hx y (by simp [hy]))
    refine ⟨st', ?_, g⟩
    simp only [visitList, Impl.iterVisit, Hibit.getU_some (List.getElem?_eq_getElem hxl),
      bind_ok, e, setU_ok _ hxl, pure_eq_ok]
    exact e'

theorem dead_take (hD : 1 ≤ I.D) {fuel : Nat} (hf : 1 ≤ fuel) : ∀ n (st : IterSt C),
    st.iters.length = I.D → (∀ q ∈ st.iters, q.Wf I.N ∧ q.rem = []) →
    I.iterTake s fuel n st = .ok (List.replicate n none) := by
  intro n
  induction n with
  | zero => intro st _ _; rfl
  | succ n ih =>
    intro st hlen hq
    obtain ⟨f, rfl⟩ : ∃ f, fuel = f + 1 := ⟨fuel - 1, by omega⟩
    have hlt : st.iters.length - 1 < st.iters.length := by omega
    obtain ⟨q', e, hq'⟩ := dead_set st.iters hq (List.getElem?_eq_getElem hlt)
    obtain ⟨st', e', g1, g2⟩ := dead_visit (I := I) (s := s) (List.range (I.D - 1)).reverse
      ⟨st.iters.set (st.iters.length - 1) q', st.lidx, st.cur⟩ (by simp [hlen]) hq'
      (fun x hx => by simp at hx; omega)
    have hrev : constForRev 0 (I.D - 1) (I.iterVisit s)
        ⟨st.iters.set (st.iters.length - 1) q', st.lidx, st.cur⟩ = .ok (st', false) := by
      unfold constForRev
      rw [iterateAsRangeRev_zero]
      exact e'
    simp only [Impl.iterTake, Impl.iterNext, Impl.iterLoop, getP_some (List.getElem?_eq_getElem hlt),
      bind_ok, e, hrev, Bool.false_eq_true, if_false, pure_eq_ok, ih st' g1 g2, List.replicate_succ]

theorem zero_ones {m : Mask} (h : ∀ j, m.bit j = false) : m.ones = [] := by
  rw [List.eq_nil_iff_forall_not_mem]
  intro x hx
  rw [mem_ones, h x] at hx
  cases hx

/-- A tree whose root mask is empty iterates nothing. -/
theorem dead_run (hN : 0 < I.N) (hD : 1 ≤ I.D) {c c' : C} {m : Mask} (e0 : I.new s = .ok c)
    (e1 : I.selectU c s 0 0 = .ok (m, c')) (hm : m.length = I.N) (hz : ∀ j, m.bit j = false)
    {fuel : Nat} (hf : 1 ≤ fuel) (n : Nat) :
    I.iterRun s fuel n = .ok (List.replicate n none) := by
  have hmp : 0 < m.length := by omega
  have hi : (intoBitsIter m).Wf I.N ∧ (intoBitsIter m).rem = [] :=
    ⟨hm ▸ intoBitsIter_wf hmp, by rw [intoBitsIter_rem hmp, zero_ones hz]⟩
  unfold Impl.iterRun Impl.iterNew
  simp only [e0, e1, bind_ok, List.length_replicate]
  rw [if_neg (by omega)]
  simp only [pure_eq_ok, bind_ok]
  refine dead_take hD hf n _ (by simp) ?_
  intro q hq
  rcases List.mem_or_eq_of_mem_set hq with h | h
  · rw [(List.mem_replicate.1 h).2]; exact ⟨empty_wf hN, empty_rem hN⟩
  · rw [h]; exact hi

end

/-! ## No trees (C37) -/

section
variable {S C δ : Type} {I : Impl S C δ} {ss : List S} {content : S → Nat → Option δ}

theorem cfg_pos {N D : Nat} (h : ValidCfg N D) : 0 < N ∧ 1 ≤ D :=
  ⟨by rcases h.words with h | h | h <;> omega, h.depth⟩

/-- **C37**, `multi_union` over no trees, of every depth: `get` is `None` at every index in range and
iteration ends at once, for ever. -/
theorem C37_multi_union_partial (hcfg : ValidCfg I.N I.D) :
    (∀ i, i < width I.N ^ I.D → i < 2 ^ 64 - 1 →
      (multiUnionImpl I).get ([] : List S) i = .ok none) ∧
    ∀ fuel, 1 ≤ fuel → ∀ n, (multiUnionImpl I).iterRun ([] : List S) fuel n =
      .ok (List.replicate n none) := by
  constructor
  · intro i h1 h2
    unfold Impl.get indexFrom saturatingPow usizeMod
    have e : i < min (width I.N ^ I.D) (2 ^ 64 - 1) := by omega
    simp only [show (multiUnionImpl I).N = I.N from rfl, show (multiUnionImpl I).D = I.D from rfl,
      if_pos e, bind_ok, levelIndices_eq hcfg]
    rfl
  · intro fuel hf n
    exact dead_run (I := multiUnionImpl I) (cfg_pos hcfg).1 (cfg_pos hcfg).2
      (c := ⟨[], List.replicate (I.D - 1) []⟩) (c' := ⟨[], List.replicate (I.D - 1) []⟩)
      (m := zeroMask I.N) rfl rfl (by simp [zeroMask]; rfl) (fun j => bit_zeroMask _ j) hf n

example : (multiUnionImpl (Dense.impl Nat 2)).get [] 77 = .ok none ∧
    (multiUnionImpl (Dense.impl Nat 2)).iterRun [] 1 3 = .ok [none, none, none] := by decide +kernel

/-- **C37** is false for `multi_intersection` over no trees: `get` answers `Some` of an empty
sequence at every in-range index, while iteration yields nothing, however often `next` is called. -/
theorem C37_fails_for_ever (hcfg : ValidCfg I.N I.D) :
    (∀ i, i < width I.N ^ I.D → i < 2 ^ 64 - 1 →
      (multiInterImpl I).get ([] : List S) i = .ok (some [])) ∧
    ∀ fuel, 1 ≤ fuel → ∀ n, (multiInterImpl I).iterRun ([] : List S) fuel n =
      .ok (List.replicate n none) := by
  refine ⟨(C37_fails hcfg).1, fun fuel hf n => ?_⟩
  exact dead_run (I := multiInterImpl I) (cfg_pos hcfg).1 (cfg_pos hcfg).2
    (c := ⟨[], usizeMod - 1, zeroMask I.N⟩) (c' := ⟨[], usizeMod - 1, zeroMask I.N⟩)
    (m := zeroMask I.N) rfl rfl (by simp [zeroMask]; rfl) (fun j => bit_zeroMask _ j) hf n

example : (multiInterImpl (Dense.impl Nat 2)).get [] 77 = .ok (some []) ∧
    (multiInterImpl (Dense.impl Nat 2)).iterRun [] 1 3 = .ok [none, none, none] := by decide +kernel

/-! ## More than 32 trees (C38), and depth 1 (C34) -/

theorem muGather_cap {data : S → R (Option δ)} {g : S → Option δ} (ss : List S)
    (h : ∀ s ∈ ss, data s = .ok (g s)) : ∀ acc : List δ, acc.length ≤ 32 →
    muGather data ss acc = if acc.length + (ss.filterMap g).length ≤ 32
      then .ok (acc ++ ss.filterMap g) else .error .panic := by
  induction ss with
  | nil => intro acc hl; simp [muGather, hl]
  | cons s ss ih =>
    intro acc hl
    have ih := ih (fun s hs => h s (by simp [hs]))
    simp only [muGather, h s (by simp), bind_ok]
    cases hg : g s with
    | none => simp only [List.filterMap_cons, hg]; exact ih acc hl
    | some d =>
      simp only [List.filterMap_cons, hg, List.length_cons, avPush]
      by_cases hc : acc.length < multiCap
      · have hc' : acc.length < 32 := hc
        rw [if_pos hc]
        simp only [bind_ok]
        rw [ih _ (by simp; omega)]
        simp only [List.length_append, List.length_singleton, List.append_assoc,
          List.singleton_append]
        by_cases hx : acc.length + ((ss.filterMap g).length + 1) ≤ 32
        · rw [if_pos (by omega), if_pos hx]
        · rw [if_neg (by omega), if_neg hx]
      · have hc' : ¬ acc.length < 32 := hc
        rw [if_neg hc, if_neg (by omega)]
        rfl

theorem miGather_cap {data : S → R (Option δ)} {g : S → Option δ} (ss : List S)
    (h : ∀ s ∈ ss, data s = .ok (g s)) : ∀ acc : List δ, acc.length ≤ 32 →
    miGather data ss acc =
      if acc.length + (ss.takeWhile (fun s => (g s).isSome)).length ≤ 32
      then .ok (if ss.all (fun s => (g s).isSome) then some (acc ++ ss.filterMap g) else none)
      else .error .panic := by
  induction ss with
  | nil => intro acc hl; simp [miGather, hl]
  | cons s ss ih =>
    intro acc hl
    have ih := ih (fun s hs => h s (by simp [hs]))
    simp only [miGather, h s (by simp), bind_ok]
    cases hg : g s with
    | none => simp [List.takeWhile_cons, hg, hl]
    | some d =>
      simp only [List.filterMap_cons, List.takeWhile_cons, List.all_cons, hg, Option.isSome_some,
        if_true, Bool.true_and, List.length_cons, avPush]
      by_cases hc : acc.length < multiCap
      · have hc' : acc.length < 32 := hc
        rw [if_pos hc]
        simp only [bind_ok]
        rw [ih _ (by simp; omega)]
        simp only [List.length_append, List.length_singleton, List.append_assoc,
          List.singleton_append]
        by_cases hx : acc.length + ((ss.takeWhile fun s => (g s).isSome).length + 1) ≤ 32
        · rw [if_pos (by omega), if_pos hx]
        · rw [if_neg (by omega), if_neg hx]
      · have hc' : ¬ acc.length < 32 := hc
        rw [if_neg hc, if_neg (by omega)]
        rfl

theorem source_data {x : Bool} (h : ∀ s ∈ ss, Built x I s (content s)) {i : Nat}
    (hi : i < width I.N ^ I.D) : ∀ s ∈ ss, I.data s i (path (width I.N) I.D i) = .ok (content s i) := by
  intro s hs
  obtain ⟨T, K, L, hc⟩ := (built_isTree (h s hs)).1
  have := L.data_eq _ (path_lt I.D hi) (path_length _ _ _)
  rw [unpath_path _ _ _ hi, hc i hi] at this
  exact this

theorem source_dataU {x : Bool} (h : ∀ s ∈ ss, Built x I s (content s)) {i : Nat}
    (hi : i < width I.N ^ I.D) : ∀ s ∈ ss, ∀ d, content s i = some d →
      I.dataU s i (path (width I.N) I.D i) = .ok d := by
  intro s hs d hd
  obtain ⟨T, K, L, hc⟩ := (built_isTree (h s hs)).1
  have := L.dataU_eq _ d (path_lt I.D hi) (path_length _ _ _) (by rw [hc i hi, hd])
  rw [unpath_path _ _ _ hi] at this
  exact this

/-- **C38** for `get`, exactly: `multi_union` over any number of trees of any depth answers right at
every in-range index present in at most 32 of them, and panics at the others. -/
theorem C38_union_get_partial {x : Bool} (hcfg : ValidCfg I.N I.D)
    (h : ∀ s ∈ ss, Built x I s (content s)) {i : Nat} (hi : i < width I.N ^ I.D)
    (hi' : i < 2 ^ 64 - 1) :
    (multiUnionImpl I).get ss i =
      if (ss.filterMap fun s => content s i).length ≤ 32
      then .ok (multiUnionMap (ss.map content) i) else .error .panic := by
  have e : i < min (width I.N ^ I.D) (2 ^ 64 - 1) := by omega
  unfold Impl.get indexFrom saturatingPow usizeMod
  simp only [show (multiUnionImpl I).N = I.N from rfl, show (multiUnionImpl I).D = I.D from rfl,
    if_pos e, bind_ok, levelIndices_eq hcfg]
  show (do let ds ← muGather (fun s => I.data s i (path (width I.N) I.D i)) ss []
           if ds.isEmpty then return none else return some ds) = _
  rw [muGather_cap ss (source_data h hi) [] (by simp)]
  simp only [List.length_nil, Nat.zero_add, List.nil_append, multiUnionMap, List.filterMap_map,
    Function.comp_def]
  by_cases hc : (ss.filterMap fun s => content s i).length ≤ 32
  · rw [if_pos hc, if_pos hc]
    simp only [bind_ok]
    cases ss.filterMap fun s => content s i <;> rfl
  · rw [if_neg hc, if_neg hc]; rfl

/-- 32 copies of `exD` are answered, 33 panic, at a present key only. -/
example : (multiUnionImpl (Dense.impl Nat 2)).get (List.replicate 32 exD) 5 =
      .ok (some (List.replicate 32 56)) ∧
    (multiUnionImpl (Dense.impl Nat 2)).get (List.replicate 33 exD) 5 = .error .panic ∧
    (multiUnionImpl (Dense.impl Nat 2)).get (List.replicate 33 exD) 6 = .ok none := by decide +kernel

/-- **C38** for `get`, exactly: `multi_intersection` answers right unless the first 33 trees (at least)
all have the index, when it panics. -/
theorem C38_intersection_get_partial {x : Bool} (hcfg : ValidCfg I.N I.D)
    (h : ∀ s ∈ ss, Built x I s (content s)) {i : Nat} (hi : i < width I.N ^ I.D)
    (hi' : i < 2 ^ 64 - 1) :
    (multiInterImpl I).get ss i =
      if (ss.takeWhile fun s => (content s i).isSome).length ≤ 32
      then .ok (multiInterMap (ss.map content) i) else .error .panic := by
  have e : i < min (width I.N ^ I.D) (2 ^ 64 - 1) := by omega
  unfold Impl.get indexFrom saturatingPow usizeMod
  simp only [show (multiInterImpl I).N = I.N from rfl, show (multiInterImpl I).D = I.D from rfl,
    if_pos e, bind_ok, levelIndices_eq hcfg]
  show miGather (fun s => I.data s i (path (width I.N) I.D i)) ss [] = _
  rw [miGather_cap ss (source_data h hi) [] (by simp)]
  simp only [List.length_nil, Nat.zero_add, List.nil_append, multiInterMap, List.filterMap_map,
    List.all_map, Function.comp_def]

example : (multiInterImpl (Dense.impl Nat 2)).get (List.replicate 32 exD) 5 =
      .ok (some (List.replicate 32 56)) ∧
    (multiInterImpl (Dense.impl Nat 2)).get (List.replicate 33 exD) 5 = .error .panic ∧
    (multiInterImpl (Dense.impl Nat 2)).get (List.replicate 33 exD) 6 = .ok none := by decide +kernel

/-- **C38** for `get_unchecked`: it has no limit on the number of trees. -/
theorem C38_get_unchecked_partial {x : Bool} (hcfg : ValidCfg I.N I.D)
    (h : ∀ s ∈ ss, Built x I s (content s)) {i : Nat} (hi : i < width I.N ^ I.D) {vs : List δ} :
    (multiUnionMap (ss.map content) i = some vs → (multiUnionImpl I).getU ss i = .ok vs) ∧
    (multiInterMap (ss.map content) i = some vs → (multiInterImpl I).getU ss i = .ok vs) := by
  constructor
  · intro hv
    unfold Impl.getU
    simp only [show (multiUnionImpl I).N = I.N from rfl, show (multiUnionImpl I).D = I.D from rfl,
      levelIndices_eq hcfg, bind_ok]
    show muGatherU (fun s => I.data s i (path (width I.N) I.D i)) ss = _
    rw [muGatherU_eq ss (source_data h hi)]
    simp only [multiUnionMap, List.filterMap_map, Function.comp_def] at hv
    cases hl : ss.filterMap (fun s => content s i) with
    | nil => rw [hl] at hv; cases hv
    | cons a l => rw [hl] at hv; cases hv; rfl
  · intro hv
    unfold Impl.getU
    simp only [show (multiInterImpl I).N = I.N from rfl, show (multiInterImpl I).D = I.D from rfl,
      levelIndices_eq hcfg, bind_ok]
    show miGatherU (fun s => I.dataU s i (path (width I.N) I.D i)) ss = _
    refine miGatherU_eq (g := fun s => content s i) ss (source_dataU h hi) vs ?_
    have : ss.mapM (fun s => content s i) = (ss.map (fun s => content s i)).mapM (fun o => o) := by
      clear h hv
      induction ss with
      | nil => rfl
      | cons s ss ih => simp only [List.mapM_cons, List.map_cons, ih]
    rw [this, mapM_eq]
    simpa [multiInterMap, List.filterMap_map, List.all_map, Function.comp_def] using hv

/-- **C34** at depth 1, iteration: nothing is yielded if the union is empty; otherwise the first call
of `next` panics (`todo!()`). (`get` works: `C38_union_get_partial`.) -/
theorem C34_depth1_iter (hcfg : ValidCfg I.N I.D) (hD : I.D = 1) (hcap : ss.length ≤ 32)
    (h : ∀ s ∈ ss, Built true I s (content s)) {fuel : Nat} (hf : 1 ≤ fuel) (n : Nat) :
    ((∀ i, i < width I.N → multiUnionMap (ss.map content) i = none) →
      (multiUnionImpl I).iterRun ss fuel n = .ok (List.replicate n none)) ∧
    ((∃ i, i < width I.N ∧ multiUnionMap (ss.map content) i ≠ none) →
      (multiUnionImpl I).iterRun ss fuel (n + 1) = .error .panic) := by
  obtain ⟨hNp, hDp⟩ := cfg_pos hcfg
  obtain ⟨T, K, hTK⟩ := choose_specs (I := I) (ss := ss) (content := content)
    (P := fun s T K => LawfulC I s T K) (fun s hs => (built_isTree (h s hs)).2 rfl)
  obtain ⟨cs, e0, ha, hb⟩ := avCursors_ok (new := I.new) (P := fun s c => s ∈ ss ∧ (K s).inv c) ss
    (fun s hs => by
      obtain ⟨c, e, hi⟩ := (hTK s hs).1.new_ok
      exact ⟨c, e, hs, hi⟩) [] (by simpa using (show ss.length ≤ multiCap from hcap))
  obtain ⟨m, cs', e1, ml, mb, -, -⟩ := muSelectRoot_ok (I := I) (i := 0)
    (P := fun s c => s ∈ ss ∧ (K s).inv c) (Q := fun _ _ => True)
    (B := fun s j => (T s).bits [] j)
    (fun s c hP => by
      obtain ⟨m, c', e, ml, mb, -⟩ := (hTK s hP.1).1.select_root c 0 hP.2 rfl
      exact ⟨m, c', e, ml, mb, trivial⟩) cs (zeroMask I.N) hb (by simp [zeroMask])
  rw [List.nil_append] at e0
  have en : (multiUnionImpl I).new ss = .ok ⟨cs, List.replicate (I.D - 1) []⟩ := by
    show (do let cs ← avCursors I.new ss []; return (⟨cs, List.replicate (I.D - 1) []⟩ : MUCursor S C)) = _
    rw [e0]; rfl
  have es : (multiUnionImpl I).selectU ⟨cs, List.replicate (I.D - 1) []⟩ ss 0 0 =
      .ok (m, ⟨cs', List.replicate (I.D - 1) []⟩) := by
    show muSelect I ⟨cs, _⟩ 0 0 = _
    simp only [muSelect, if_true, e1, bind_ok, pure_eq_ok]
  have hbit : ∀ j, j < width I.N → m.bit j = (multiUnionMap (ss.map content) j).isSome := by
    intro j hj
    rw [mb, bit_zeroMask, ha, Bool.false_or, Bool.eq_iff_iff, List.any_eq_true]
    have hj' : j < width I.N ^ I.D := by rw [hD]; simpa using hj
    have hc : ∀ s ∈ ss, (T s).bits [] j = (content s j).isSome := by
      intro s hs
      rw [(hTK s hs).1.wf.terminal [] j ValidPath.nil (by simp [hD]) hj, ← (hTK s hs).2 j hj']
      rw [hD]
      simp [path, Nat.mod_eq_of_lt hj]
    simp only [multiUnionMap, List.filterMap_map, Function.comp_def]
    constructor
    · rintro ⟨s, hs, hx⟩
      rw [hc s hs] at hx
      obtain ⟨d, hd⟩ := Option.isSome_iff_exists.1 hx
      have : d ∈ ss.filterMap (fun s => content s j) := List.mem_filterMap.2 ⟨s, hs, hd⟩
      cases hl : ss.filterMap (fun s => content s j) with
      | nil => rw [hl] at this; cases this
      | cons a l => rfl
    · intro hx
      cases hl : ss.filterMap (fun s => content s j) with
      | nil => rw [hl] at hx; cases hx
      | cons a l =>
        have : a ∈ ss.filterMap (fun s => content s j) := by rw [hl]; simp
        obtain ⟨s, hs, hd⟩ := List.mem_filterMap.1 this
        exact ⟨s, hs, by rw [hc s hs, hd]; rfl⟩
  have hbl : ∀ j, m.bit j = true → j < width I.N := by
    intro j hj
    rw [mb, bit_zeroMask, ha, Bool.false_or, List.any_eq_true] at hj
    obtain ⟨s, hs, hj⟩ := hj
    exact (hTK s hs).1.wf.bits_lt _ _ hj
  constructor
  · intro hnone
    refine dead_run (I := multiUnionImpl I) hNp hDp en es ml (fun j => ?_) hf n
    cases hj : m.bit j with
    | false => rfl
    | true =>
      have := hbit j (hbl j hj)
      rw [hj, hnone j (hbl j hj)] at this
      cases this
  · rintro ⟨i, hi, hne⟩
    have hmp : 0 < m.length := by omega
    have hi1 : i ∈ m.ones := by
      rw [mem_ones, hbit i hi]
      cases hx : multiUnionMap (ss.map content) i with
      | none => exact absurd hx hne
      | some _ => rfl
    obtain ⟨a, l, hal⟩ : ∃ a l, m.ones = a :: l := by
      cases ho : m.ones with
      | nil => rw [ho] at hi1; cases hi1
      | cons a l => exact ⟨a, l, rfl⟩
    obtain ⟨q', eq, -, -⟩ := next_spec (intoBitsIter_wf hmp)
    rw [intoBitsIter_rem hmp, hal] at eq
    obtain ⟨f, rfl⟩ : ∃ f, fuel = f + 1 := ⟨fuel - 1, by omega⟩
    have hDm : (multiUnionImpl I).D = 1 := hD
    unfold Impl.iterRun Impl.iterNew
    simp only [en, es, bind_ok, hDm, List.length_replicate]
    rw [if_neg (by omega)]
    simp only [pure_eq_ok, bind_ok, Impl.iterTake, Impl.iterNext, Impl.iterLoop, List.length_set,
      List.length_replicate, Nat.sub_self]
    have hg : ((List.replicate 1 (BitsIter.empty (multiUnionImpl I).N)).set 0 (intoBitsIter m))[0]? =
      some (intoBitsIter m) := rfl
    simp only [getP_some hg, bind_ok, eq, List.head?_cons, pure_eq_ok]
    show (do let r ← (do let d ← (multiUnionImpl I).curDataU _ ss a; _); _) = _
    rw [(C34_depth1 (I := I) (ss := ss) hD _ a).2]
    rfl

/-- One tree of depth 1: empty, and with a key. -/
example : (do
    let e ← Dense.default Nat 1
    (multiUnionImpl (Dense.impl Nat 1)).iterRun [e] 9 2 : R _) = .ok [none, none] ∧
    (do
      let e ← Dense.default Nat 1
      let r ← Dense.run 1 e [.insert 3 1]
      let _ ← (multiUnionImpl (Dense.impl Nat 1)).iterRun [r.1] 9 1 : R _) = .error .panic := by
  decide +kernel

/-! ## Checked cursor data of `multi_union` (C39) -/

/-- **C39** for `multi_union`, exactly: after any legal history of selects ending at a terminal node
with path `p`, the cursor's `data(k)` is `None` if the node's whole mask is empty, and otherwise `Some`
of the values present at `k` – an empty sequence when there are none. -/
theorem C39_multi_union_partial (hcfg : ValidCfg I.N I.D) (hD : 2 ≤ I.D) (hcap : ss.length ≤ 32)
    (h : ∀ s ∈ ss, Built true I s (content s)) :
    ∃ B, MaskSpec (width I.N) I.D I.exact (multiUnionMap (ss.map content)) B ∧
      ∃ c0, (multiUnionImpl I).new ss = .ok c0 ∧
      ∀ moves, LegalMoves (width I.N) I.D B none moves →
        ∃ masks c, runMoves (multiUnionImpl I) ss c0 moves = .ok (masks, c) ∧
          MasksAre I.N B masks (movePaths none moves) ∧
          ∀ p, (movePaths none moves).getLast? = some p → p.length + 1 = I.D →
            ∀ k, k < width I.N →
              ((∃ j, B p j = true) → (multiUnionImpl I).curData c ss k =
                .ok (some (ss.filterMap fun s => content s (unpath (width I.N) (p ++ [k]))))) ∧
              ((∀ j, B p j = false) → (multiUnionImpl I).curData c ss k = .ok none) := by
  obtain ⟨T, K, hTK⟩ := choose_specs (I := I) (ss := ss) (content := content)
    (P := fun s T K => LawfulC I s T K) (fun s hs => (built_isTree (h s hs)).2 rfl)
  have L := mu_lawful hcfg hD hcap (fun s hs => (hTK s hs).1)
  have hcont : ∀ i, i < width I.N ^ I.D → (muSpec T ss).content (path (width I.N) I.D i) =
      multiUnionMap (ss.map content) i := by
    intro i hi
    have e : ss.filterMap (fun s => (T s).content (path (width I.N) I.D i)) =
        (ss.map content).filterMap (fun M => M i) := by
      rw [List.filterMap_map]
      exact filterMap_congr_mem fun s hs => (hTK s hs).2 i hi
    simp only [muSpec, e, multiUnionMap]
    cases (ss.map content).filterMap (fun M => M i) <;> rfl
  obtain ⟨c0, e0, h0⟩ := L.new_ok
  refine ⟨(muSpec T ss).bits, maskSpec (I := multiUnionImpl I) L.wf hcont, c0, e0, fun moves hl => ?_⟩
  obtain ⟨masks, c, e1, h1, h2⟩ := moves_spec L moves c0 none h0 (fun p e => by cases e) hl
  refine ⟨masks, c, e1, h1, fun p hp hd k hk => ?_⟩
  cases moves with
  | nil => simp [movePaths] at hp
  | cons a as =>
    obtain ⟨g1, g2, -⟩ := h2 ((a :: as).getLast (by simp)) (a :: as).dropLast p
      (List.dropLast_concat_getLast (by simp)).symm hp
    obtain ⟨r1, r2⟩ := mu_curData_eq hD (fun s hs => (hTK s hs).1) g1 g2 hk hd
    constructor
    · intro hj
      refine (r1 hj).trans ?_
      congr 2
      refine filterMap_congr_mem fun s hs => ?_
      exact content_of (I := I) (hTK s hs).2 (ValidPath.append g2 hk) (by simpa using hd)
    · intro hj
      exact r2 (fun ⟨j, e⟩ => by rw [hj j] at e; cases e)

/-- At the node of keys 0..63 of `multi_union([exD, exD])` (mask not empty): the present key 5 and the
absent key 6. At the node of keys 128..191 (mask empty): `None`. -/
example : (do
    let U := multiUnionImpl (Dense.impl Nat 2)
    let c ← U.new [exD, exD]
    let r ← runMoves U [exD, exD] c [⟨true, 0, 0⟩, ⟨true, 1, 0⟩]
    let q ← runMoves U [exD, exD] r.2 [⟨true, 1, 2⟩]
    return [← U.curData r.2 [exD, exD] 5, ← U.curData r.2 [exD, exD] 6,
      ← U.curData q.2 [exD, exD] 6] : R _) = .ok [some [56, 56], some [], none] := by decide +kernel

/-- **C39** is false for `multi_union` in general: at *every* terminal node in which some key is
present, reached by any legal history, `data(k)` of every absent `k` is `Some` of an empty sequence,
where `get` answers `None`. -/
theorem C39_fails_everywhere (hcfg : ValidCfg I.N I.D) (hD : 2 ≤ I.D) (hcap : ss.length ≤ 32)
    (h : ∀ s ∈ ss, Built true I s (content s)) :
    ∃ B, MaskSpec (width I.N) I.D I.exact (multiUnionMap (ss.map content)) B ∧
      ∃ c0, (multiUnionImpl I).new ss = .ok c0 ∧
      ∀ moves p, LegalMoves (width I.N) I.D B none moves →
        (movePaths none moves).getLast? = some p → ValidPath (width I.N) p → p.length + 1 = I.D →
        ∀ j k, j < width I.N → k < width I.N →
          multiUnionMap (ss.map content) (unpath (width I.N) (p ++ [j])) ≠ none →
          multiUnionMap (ss.map content) (unpath (width I.N) (p ++ [k])) = none →
          ∃ masks c, runMoves (multiUnionImpl I) ss c0 moves = .ok (masks, c) ∧
            (multiUnionImpl I).curData c ss k = .ok (some []) := by
  obtain ⟨B, hB, c0, e0, h0⟩ := C39_multi_union_partial hcfg hD hcap h
  refine ⟨B, hB, c0, e0, fun moves p hl hp hv hd j k hj hk h1 h2 => ?_⟩
  obtain ⟨masks, c, e1, -, g⟩ := h0 moves hl
  refine ⟨masks, c, e1, ((g p hp hd k hk).1 ⟨j, ?_⟩).trans ?_⟩
  · rw [hB.terminal p j hv hd hj]
    cases hx : multiUnionMap (ss.map content) (unpath (width I.N) (p ++ [j])) with
    | none => exact absurd hx h1
    | some _ => rfl
  · simp only [multiUnionMap, List.filterMap_map, Function.comp_def] at h2
    cases hl : ss.filterMap (fun s => content s (unpath (width I.N) (p ++ [k]))) with
    | nil => rfl
    | cons a l => rw [hl] at h2; cases h2

end

/-- The hypotheses are met: 40 copies of one DenseTree, of which `get` panics at present keys only. -/
example : ∃ t : Dense.DT Nat,
    (multiUnionImpl (Dense.impl Nat 2)).get (List.replicate 40 t) 5 = .error .panic ∧
    (multiUnionImpl (Dense.impl Nat 2)).get (List.replicate 40 t) 4095 = .ok none ∧
    (multiUnionImpl (Dense.impl Nat 2)).getU (List.replicate 40 t) 5 = .ok (List.replicate 40 56) := by
  obtain ⟨t, M, h, e1, -, -, e4⟩ := exDense
  have hb : ∀ s ∈ List.replicate 40 t, Built true (Dense.impl Nat 2) s M := fun s hs => by
    rw [(List.mem_replicate.1 hs).2]; exact h
  have hcfg := Dense.validCfg (D := 2) (by decide) (by decide)
  have hmap : ∀ k, (List.replicate 40 t).filterMap (fun _ => M k) =
      (List.replicate 40 (M k)).filterMap id := by
    intro k; generalize (40 : Nat) = n
    induction n with
    | zero => rfl
    | succ n ih => rw [List.replicate_succ, List.replicate_succ, List.filterMap_cons, List.filterMap_cons, ih]; rfl
  refine ⟨t, ?_, ?_, ?_⟩
  · rw [C38_union_get_partial (content := fun _ => M) hcfg hb (i := 5) (by decide) (by decide), hmap, e1]
    rfl
  · rw [C38_union_get_partial (content := fun _ => M) hcfg hb (i := 4095) (by decide) (by decide), hmap, e4,
      if_pos (by simp)]
    simp [multiUnionMap, e4]
  · refine (C38_get_unchecked_partial (content := fun _ => M) hcfg hb (i := 5) (by decide)).1 ?_
    simp [multiUnionMap, List.filterMap_replicate, e1]

end Hibit.Props
