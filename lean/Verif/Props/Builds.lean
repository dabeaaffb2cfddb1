import Verif.Builds.Mat
import Verif.Props.Trees
/-!
# Property C81: all builds of the crate behave alike

`Builds/Model.lean` gives the code of the containers, the iterator and `materialize` for every build: overflow checks and
`debug_assert!` on (debug) or off (release: arithmetic wraps, shift amounts are taken mod 64, failed assertions are
ignored), `bmi2` on or off. The reference maps (`specRun`), histories and expressions are those of C11, C19 and C41.
-/
namespace Hibit.Props
open Hibit

/-- `I'` is the implementation the build `B` produces for the source code modelled by `I`. -/
inductive Compiled (B : Build) : {S C δ : Type} → Impl S C δ → Impl S C δ → Prop
  | dense (α : Type) (D : Nat) : Compiled B (Dense.impl α D) (Build.Dense.impl B α D)
  | sparse (α : Type) (N D : Nat) : Compiled B (Sparse.impl α N D) (Build.Sparse.impl B α N D)
  /-- a tree written by the user: none of the crate's code -/
  | user {S C δ : Type} (I : Impl S C δ) : Compiled B I I
  | union {S0 C0 δ0 S1 C1 δ1 : Type} {I0 I0' : Impl S0 C0 δ0} {I1 I1' : Impl S1 C1 δ1} : I0.D = I1.D →
      Compiled B I0 I0' → Compiled B I1 I1' → Compiled B (unionImpl I0 I1) (unionImpl I0' I1')
  | inter {S0 C0 δ0 S1 C1 δ1 : Type} {I0 I0' : Impl S0 C0 δ0} {I1 I1' : Impl S1 C1 δ1} : I0.D = I1.D →
      Compiled B I0 I0' → Compiled B I1 I1' → Compiled B (interImpl I0 I1) (interImpl I0' I1')
  | map {S C δ ε : Type} {I I' : Impl S C δ} (f : δ → ε) : Compiled B I I' → Compiled B (mapImpl I f) (mapImpl I' f)
  | multiInter {S C δ : Type} {I I' : Impl S C δ} : Compiled B I I' →
      Compiled B (multiInterImpl I) (B.multiInterImpl I')
  | multiUnion {S C δ : Type} {I I' : Impl S C δ} : Compiled B I I' → Compiled B (multiUnionImpl I) (multiUnionImpl I')
  | fold {S C δ β : Type} {I I' : Impl S C (List δ)} (init : β) (f : β → δ → β) : Compiled B I I' →
      Compiled B (foldImpl I init f) (foldImpl I' init f)

theorem implLe_refl {S C δ : Type} (I : Impl S C δ) : Build.ImplLe I I :=
  ⟨rfl, rfl, rfl, fun _ _ _ _ => .refl _, fun _ _ _ _ => .refl _, fun _ => .refl _, fun _ _ _ _ => .refl _,
    fun _ _ _ _ => .refl _, fun _ _ _ => .refl _, fun _ _ _ => .refl _⟩

theorem Compiled.le {B : Build} {S C δ : Type} {I I' : Impl S C δ} (h : Compiled B I I') : Build.ImplLe I I' := by
  induction h with
  | dense α D => exact Build.Dense.impl_le α D
  | sparse α N D => exact Build.Sparse.impl_le α N D
  | user I => exact implLe_refl I
  | union hD _ _ h0 h1 => exact Build.union_le h0 h1 hD
  | inter hD _ _ h0 h1 => exact Build.inter_le h0 h1 hD
  | map f _ h => exact Build.map_le h f
  | multiInter _ h => exact Build.multiInter_le h
  | multiUnion _ h => exact Build.multiUnion_le h
  | fold init f _ h => exact Build.fold_le h init f

/-- **C81**, DenseTree: in every build, a supported history runs to the end with the results of a map; afterwards every `get`
answers as the map does, where a key is present `get_unchecked` returns its value, and `drop` frees everything and drops
each value once. -/
theorem C81_dense (B : Build) {α : Type} {D : Nat} {ops : List (Dense.Op α)} (h : DenseHistory D ops) :
    ∃ t0 t, Build.Dense.default B α D = .ok t0 ∧
      Build.Dense.run B D t0 ops = .ok (t, (Dense.specRun emptyMap ops).2) ∧
      (∀ k, k < 64 ^ D → B.get (Build.Dense.impl B α D) t k = .ok ((Dense.specRun emptyMap ops).1 k)) ∧
      (∀ k v, k < 64 ^ D → (Dense.specRun emptyMap ops).1 k = some v →
        B.getUnchecked (Build.Dense.impl B α D) t k = .ok v) ∧
      ∃ vs heap', Build.Dense.dropImpl B D t = .ok (vs, heap') ∧
        List.Perm vs (valuesOf (64 ^ D) (Dense.specRun emptyMap ops).1) ∧ ∀ a, heap'.node a = none := by
  obtain ⟨t0, t, e0, e1, e2⟩ := C11_dense_map h
  obtain ⟨vs, heap', e3, e4⟩ := C17_drop h ⟨t0, _, e0, e1⟩
  have hle := Build.Dense.impl_le (B := B) α D
  refine ⟨t0, t, Build.Dense.default_le D _ e0, Build.Dense.run_le D ops t0 _ e1,
    fun k hk => Build.get_le hle _ _ _ (e2 k hk), fun k v hk hv => ?_,
    vs, heap', Build.Dense.dropImpl_le D t _ e3, e4⟩
  refine Build.getUnchecked_le hle _ _ _ (contract_get_unchecked (dense_isTree h ⟨t0, _, e0, e1⟩).isTree ?_)
  rw [e2 k hk, hv]

/-- The four builds on the history `exOps`; release builds take other routes in `get_dense_index` and the arithmetic. -/
example : ∀ c b, (do
    let t0 ← Build.Dense.default ⟨c, b⟩ Nat 2
    let (t, _) ← Build.Dense.run ⟨c, b⟩ 2 t0 exOps
    return (← Build.get ⟨c, b⟩ (Build.Dense.impl ⟨c, b⟩ Nat 2) t 64, (← Build.Dense.dropImpl ⟨c, b⟩ 2 t).1) : R _) =
      .ok (some 72, [56, 72, 202]) := by
  intro c b; cases c <;> cases b <;> decide +kernel

/-- **C81**, SparseTree. -/
theorem C81_sparse (B : Build) {α : Type} {N D : Nat} {dflt : Option α} {ops : List (Sparse.Op α)}
    (h : SparseHistory N D dflt ops) :
    ∃ t, Build.Sparse.run B N D (Sparse.default α N D dflt) ops = .ok (t, (Sparse.specRun dflt emptyMap ops).2) ∧
      (∀ k, k < Sparse.keyRange N D →
        B.get (Build.Sparse.impl B α N D) t k = .ok ((Sparse.specRun dflt emptyMap ops).1 k)) ∧
      (∀ k v, k < Sparse.keyRange N D → (Sparse.specRun dflt emptyMap ops).1 k = some v →
        B.getUnchecked (Build.Sparse.impl B α N D) t k = .ok v) ∧
      ∃ vs, Build.Sparse.dropImpl B dflt.isSome t = .ok (dflt.toList ++ vs) ∧
        List.Perm vs (valuesOf (width N ^ D) (Sparse.specRun dflt emptyMap ops).1) := by
  obtain ⟨t, e1, e2⟩ := C19_sparse_map h
  obtain ⟨vs, e3, e4⟩ := C26_drop h ⟨_, e1⟩
  have hle := Build.Sparse.impl_le (B := B) α N D
  refine ⟨t, Build.Sparse.run_le N D ops _ _ e1, fun k hk => Build.get_le hle _ _ _ (e2 k hk), fun k v hk hv => ?_,
    vs, Build.Sparse.dropImpl_le _ t _ e3, e4⟩
  refine Build.getUnchecked_le hle _ _ _ (contract_get_unchecked (sparse_isTree h ⟨_, e1⟩).isTree ?_)
  rw [e2 k hk, hv]

example : ∀ c b, (do
    let (t, _) ← Build.Sparse.run ⟨c, b⟩ 2 2 (Sparse.default Nat 2 2 (some 9)) exOpsS
    return (← Build.get ⟨c, b⟩ (Build.Sparse.impl ⟨c, b⟩ Nat 2 2) t 128, ← Build.Sparse.dropImpl ⟨c, b⟩ true t) : R _) =
      .ok (some 136, [9, 56, 136, 404]) := by
  intro c b; cases c <;> cases b <;> decide +kernel

/-- **C81**, memory safety of DenseTree (depth ≥ 2) in every build: with arbitrary `usize` keys, a history runs to the end or
panics at an out-of-range key – also without the checks of a debug build. -/
theorem C81_dense_memory_safe (B : Build) {α : Type} {D : Nat} (h2 : 2 ≤ D) (h9 : D ≤ 9) (ops : List (Dense.Op α))
    (hb : Dense.Bounded (64 ^ D) (2 ^ 32) emptyMap ops) :
    ∃ t0, Build.Dense.default B α D = .ok t0 ∧ ∀ e, Build.Dense.run B D t0 ops = .error e →
      e = .panic ∧ ∃ op ∈ ops, ¬ op.InRange (64 ^ D) := by
  obtain ⟨t0, e0, R0⟩ := Dense.default_rep α (by omega) h9
  refine ⟨t0, Build.Dense.default_le D _ e0, ?_⟩
  have key : ∀ (ops : List (Dense.Op α)) (t : Dense.DT α) (M : Nat → Option α), Dense.DRep Dense.AllNodes D t M →
      Dense.Bounded (64 ^ D) (2 ^ 32) M ops → ∀ e, Build.Dense.run B D t ops = .error e →
      e = .panic ∧ ∃ op ∈ ops, ¬ op.InRange (64 ^ D) := by
    intro ops
    induction ops with
    | nil => intro t M R _ e he; cases he
    | cons op ops ih =>
      intro t M R hb e he
      by_cases hr : op.InRange (64 ^ D)
      · have hb' : card (64 ^ D) (op.spec M).1 < 2 ^ 32 := by
          have := hb.2
          cases ops with
          | nil => exact this
          | cons o os => exact this.1
        obtain ⟨t1, e1, R1⟩ := Dense.step_spec R (by cases op <;> simp [Dense.Op.OkDepth] <;> omega) h9 hr hb'
        have e1 := Build.Dense.step_le (B := B) D t op _ e1
        simp only [Build.Dense.run, e1, bind_ok] at he
        cases hrun : Build.Dense.run B D t1 ops with
        | error e' =>
          rw [hrun] at he
          simp only [bind_err, Except.error.injEq] at he
          subst he
          obtain ⟨g1, o, g2, g3⟩ := ih t1 _ R1 hb.2 _ hrun
          exact ⟨g1, o, by simp [g2], g3⟩
        | ok r => rw [hrun] at he; cases he
      · refine ⟨?_, op, by simp, hr⟩
        cases op with
        | mutValues g => exact absurd trivial hr
        | insert k v =>
          have hk : ¬ k < 64 ^ D := hr
          simp only [Build.Dense.run, Build.Dense.step, Build.Dense.insert, Dense.indexFrom_ok h9, if_neg hk, bind_err,
            Except.error.injEq] at he
          exact he.symm
        | getOrInsert k d g =>
          have hk : ¬ k < 64 ^ D := hr
          simp only [Build.Dense.run, Build.Dense.step, Build.Dense.getOrInsert, Dense.indexFrom_ok h9, if_neg hk,
            bind_err, Except.error.injEq] at he
          exact he.symm
        | remove k =>
          have hk : ¬ k < 64 ^ D := hr
          simp only [Build.Dense.run, Build.Dense.step, Build.Dense.remove, Dense.indexFrom_ok h9, if_neg hk, bind_err,
            Except.error.injEq] at he
          exact he.symm
        | get k =>
          have hk : ¬ k < 64 ^ D := hr
          have : B.get (Build.Dense.impl B α D) t k = .error .panic := by
            show (do let index ← indexFrom 1 D k
                     let indices ← B.levelIndices 1 D index
                     Build.Dense.treeData B D t index indices) = _
            rw [Dense.indexFrom_ok h9, if_neg hk]; rfl
          simp only [Build.Dense.run, Build.Dense.step, this, bind_err, Except.error.injEq] at he
          exact he.symm
  exact key ops t0 _ R0 hb

/-- **C81**, memory safety of SparseTree in every build. -/
theorem C81_sparse_memory_safe (B : Build) {α : Type} {N D : Nat} {dflt : Option α} (hc : Sparse.Cfg N D)
    (ops : List (Sparse.Op α)) (hb : Sparse.Always dflt (Sparse.Fits (width N) D Sparse.idxCap) emptyMap ops)
    (hd : ∀ k, Sparse.Op.getOrDefault k ∈ ops → dflt.isSome) :
    ∀ e, Build.Sparse.run B N D (Sparse.default α N D dflt) ops = .error e →
      e = .panic ∧ ∃ op ∈ ops, ¬ op.Ok (Sparse.keyRange N D) dflt := by
  have hcap := Sparse.idxCap_ok D
  have key : ∀ (ops : List (Sparse.Op α)) (t : Sparse.ST α) (M : Nat → Option α),
      Sparse.SRep N D Sparse.idxCap dflt [] t M → Sparse.Always dflt (Sparse.Fits (width N) D Sparse.idxCap) M ops →
      (∀ k, Sparse.Op.getOrDefault k ∈ ops → dflt.isSome) → ∀ e, Build.Sparse.run B N D t ops = .error e →
      e = .panic ∧ ∃ op ∈ ops, ¬ op.Ok (Sparse.keyRange N D) dflt := by
    intro ops
    induction ops with
    | nil => intro t M R _ _ e he; cases he
    | cons op ops ih =>
      intro t M R hb hd e he
      by_cases hr : op.Ok (Sparse.keyRange N D) dflt
      · obtain ⟨t1, e1, R1⟩ := Sparse.step_spec hc hcap R hr (Sparse.fits_occ_nil hb.2.head)
        have e1 := Build.Sparse.step_le (B := B) N D t op _ e1
        simp only [Build.Sparse.run, e1, bind_ok] at he
        cases hrun : Build.Sparse.run B N D t1 ops with
        | error e' =>
          rw [hrun] at he
          simp only [bind_err, Except.error.injEq] at he
          subst he
          obtain ⟨g1, o, g2, g3⟩ := ih t1 _ R1 hb.2 (fun k hk => hd k (by simp [hk])) _ hrun
          exact ⟨g1, o, by simp [g2], g3⟩
        | ok r => rw [hrun] at he; cases he
      · refine ⟨?_, op, by simp, hr⟩
        cases op with
        | mutValues g => exact absurd trivial hr
        | insert k v =>
          have hk : ¬ k < Sparse.keyRange N D := hr
          simp only [Build.Sparse.run, Build.Sparse.step, Build.Sparse.insert, Sparse.indexFrom_eq, if_neg hk, bind_err,
            Except.error.injEq] at he
          exact he.symm
        | getOrInsert k d g =>
          have hk : ¬ k < Sparse.keyRange N D := hr
          simp only [Build.Sparse.run, Build.Sparse.step, Build.Sparse.getOrInsert, Sparse.indexFrom_eq, if_neg hk,
            bind_err, Except.error.injEq] at he
          exact he.symm
        | remove k =>
          have hk : ¬ k < Sparse.keyRange N D := hr
          simp only [Build.Sparse.run, Build.Sparse.step, Build.Sparse.remove, Sparse.indexFrom_eq, if_neg hk, bind_err,
            Except.error.injEq] at he
          exact he.symm
        | get k =>
          have hk : ¬ k < Sparse.keyRange N D := hr
          have : B.get (Build.Sparse.impl B α N D) t k = .error .panic := by
            show (do let index ← indexFrom N D k
                     let indices ← B.levelIndices N D index
                     Build.Sparse.treeData B D t indices) = _
            rw [Sparse.indexFrom_eq, if_neg hk]; rfl
          simp only [Build.Sparse.run, Build.Sparse.step, this, bind_err, Except.error.injEq] at he
          exact he.symm
        | getMut k g =>
          have hk : ¬ k < Sparse.keyRange N D := hr
          simp only [Build.Sparse.run, Build.Sparse.step, Build.Sparse.getMut, Sparse.indexFrom_eq, if_neg hk, bind_err,
            Except.error.injEq] at he
          exact he.symm
        | getOrDefault k =>
          have hk : ¬ k < Sparse.keyRange N D := fun e => hr ⟨e, hd k (by simp)⟩
          simp only [Build.Sparse.run, Build.Sparse.step, Build.Sparse.getOrDefault, Sparse.indexFrom_eq, if_neg hk,
            bind_err, Except.error.injEq] at he
          exact he.symm
  exact key ops _ _ ⟨_, Sparse.default_ss hc.pos hcap.one⟩ hb hd

/-- An out-of-range key in a release build: still a panic, after a run without undefined behaviour. -/
example : ∀ c b, ((do
      let t0 ← Build.Dense.default ⟨c, b⟩ Nat 2
      let _ ← Build.Dense.run ⟨c, b⟩ 2 t0 (exOps ++ [.remove 4096]) : R _) = .error .panic) ∧
    ((do
      let _ ← Build.Sparse.run ⟨c, b⟩ 2 2 (Sparse.default Nat 2 2 (some 9)) (exOpsS ++ [.remove 16384]) : R _) =
        .error .panic) := by
  intro c b; cases c <;> cases b <;> exact ⟨by decide +kernel, by decide +kernel⟩

section
variable {B : Build} {x : Bool} {S C δ : Type} {I I' : Impl S C δ} {s : S} {M : Nat → Option δ}

/-- **C81**, expressions: for every build, the compiled expression over the same containers has the same meaning: it behaves
as the traits' documentation demands (`TreeDocs`: data, cursors, masks) of a tree with content `M`; `get` and iteration
compiled in that build return that content. By `Built.custom` every theorem about expressions applies to it. -/
theorem C81_trees (hc : Compiled B I I') (h : Built x I s M) :
    TreeDocs x I' s M ∧ I'.N = I.N ∧ I'.D = I.D ∧ I'.exact = I.exact ∧
      (∀ i, i < width I.N ^ I.D → i < 2 ^ 64 - 1 → B.get I' s i = .ok (M i)) ∧
      (∀ i v, i < width I.N ^ I.D → i < 2 ^ 64 - 1 → M i = some v → B.getUnchecked I' s i = .ok v) ∧
      ∃ F, ∀ fuel, F ≤ fuel → ∀ n, B.iterRun I' s fuel n =
        .ok ((List.range n).map (fun k => (listing (width I.N ^ I.D) M)[k]?)) := by
  have hle := hc.le
  have hT := built_isTree h
  obtain ⟨hg, F, hF⟩ := getIter hT.1
  refine ⟨?_, hle.N, hle.D, hle.exact, fun i h1 h2 => Build.get_le hle _ _ _ (hg i h1 h2), fun i v h1 h2 hv => ?_,
    F, fun fuel hf n => Build.iterRun_le hle _ _ _ _ (hF fuel hf n)⟩
  · cases x with
    | true => exact isTreeC_docs (Build.isTreeC_of_le hle (hT.2 rfl))
    | false => exact isTree_docs (Build.isTree_of_le hle hT.1)
  · exact Build.getUnchecked_le hle _ _ _ (contract_get_unchecked hT.1 (by rw [hg i h1 h2, hv]))

/-- **C81**, `materialize`: from an expression with exact hierarchy, every build makes the same DenseTree, with the content
of the expression. -/
theorem C81_materialize (hc : Compiled B I I') (h : Built x I s M) (hN : I.N = 1) (hex : I.exact = true) (h9 : I.D ≤ 9)
    (hroom : card (64 ^ I.D) M < 2 ^ 32) :
    ∃ t, Build.Dense.materialize B I' s = .ok t ∧ Dense.materialize I s = .ok t ∧
      ∀ k, k < 64 ^ I.D → B.get (Build.Dense.impl B δ I.D) t k = .ok (M k) := by
  obtain ⟨t, e1, e2, -⟩ := contract_materialize_exact (built_isTree h).1 hN hex h9 hroom
  refine ⟨t, Build.Dense.materialize_le hc.le s _ e1, e1, fun k hk => ?_⟩
  refine Build.get_le (Build.Dense.impl_le δ I.D) _ _ _ ((e2 k).trans ((getIter (built_isTree h).1).1 k ?_ ?_))
  · rw [hN]; exact hk
  · have : (64 : Nat) ^ I.D ≤ 64 ^ 9 := Nat.pow_le_pow_right (by decide) h9
    have h64 : (64 : Nat) ^ 9 < 2 ^ 64 - 1 := by decide
    omega

/-- **C81**: whenever `materialize` (of any tree, exact or not) succeeds in the checked build, it succeeds with the same
tree in every build. -/
theorem C81_materialize_same (hc : Compiled B I I') {t : Dense.DT δ} (h : Dense.materialize I s = .ok t) :
    Build.Dense.materialize B I' s = .ok t := Build.Dense.materialize_le hc.le s _ h

end

/-- `union(exD, exU)` compiled in a release build with `bmi2`: iterated and materialized. -/
example : Compiled ⟨false, true⟩ exUnion
      (unionImpl (Build.Dense.impl ⟨false, true⟩ Nat 2) (Build.Sparse.impl ⟨false, true⟩ Nat 1 2)) ∧
    Build.iterRun ⟨false, true⟩
      (unionImpl (Build.Dense.impl ⟨false, true⟩ Nat 2) (Build.Sparse.impl ⟨false, true⟩ Nat 1 2)) (exD, exU) 9 5 =
      .ok [some (5, (some 56, some 2)), some (64, (some 72, none)), some (200, (some 202, none)),
        some (4095, (none, some 3)), none] ∧
    (Build.Dense.materialize ⟨false, true⟩
      (unionImpl (Build.Dense.impl ⟨false, true⟩ Nat 2) (Build.Sparse.impl ⟨false, true⟩ Nat 1 2)) (exD, exU)).map
        (·.keys.tail) = .ok [5, 64, 200, 4095] :=
  ⟨.union rfl (.dense _ _) (.sparse _ _ _), by decide +kernel, by decide +kernel⟩

/-- The builds do differ outside supported use: with checks, `data_block_index` panics on coordinates that exceed `usize`;
without, it wraps. -/
example : Build.dataBlockIndex ⟨true, false⟩ 4 2 [2 ^ 56, 0] (2 ^ 64 - 1) = .ok (2 ^ 64 - 1) ∧
    Build.dataBlockIndex ⟨true, false⟩ 4 2 [1, 0] (2 ^ 64 - 1) = .error .panic ∧
    Build.dataBlockIndex ⟨false, false⟩ 4 2 [1, 0] (2 ^ 64 - 1) = .ok 255 := by decide +kernel

/-- So do the primitives themselves. -/
example : Build.mul ⟨true, false⟩ 256 16 17 = .error .panic ∧ Build.mul ⟨false, false⟩ 256 16 17 = .ok 16 ∧
    Build.debugAssert ⟨true, true⟩ false = .error .panic ∧ Build.debugAssert ⟨false, true⟩ false = .ok () := by decide +kernel

end Hibit.Props
