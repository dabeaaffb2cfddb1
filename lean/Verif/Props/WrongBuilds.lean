import Verif.Builds.Wrong
import Verif.Props.Builds
import Verif.Props.WrongIter
/-!
# Property C85: user-written trees with arbitrary answers, in every build

C82 and C84 are about the build with checks. Here: the same for every build, and that all builds do the same.
-/
namespace Hibit.Props
open Hibit Hibit.Dense

/-- Tree expressions as the build `B` compiles them, over well-behaved expressions and user-written trees with
arbitrary answers; `t`, `u` and `h` are as in `Mixed`. -/
inductive MixedIn (B : Build) (t : Bool) : Bool → Bool → {S C δ : Type} → Impl S C δ → S → Prop
  /-- any expression over containers and well-behaved user trees, compiled -/
  | good {S C δ : Type} {I I' : Impl S C δ} {s : S} {M : Nat → Option δ} :
      Built true I s M → Compiled B I I' → MixedIn B t true true I' s
  /-- any user-written tree -/
  | user {S C δ : Type} {I : Impl S C δ} {s : S} : Tame I →
      (t = true → Returns I) → MixedIn B t true false I s
  /-- any user-written tree whose cursor always has data -/
  | userSome {S C δ : Type} {I : Impl S C δ} {s : S} : Tame I → NeverNone I →
      (t = true → Returns I) → MixedIn B t true true I s
  | weaken {u h u' h' : Bool} {S C δ : Type} {I : Impl S C δ} {s : S} :
      MixedIn B t u h I s → (u' = true → u = true) → (h' = true → h = true) → MixedIn B t u' h' I s
  | map {u h : Bool} {S C δ ε : Type} {I : Impl S C δ} {s : S} (f : δ → ε) :
      MixedIn B t u h I s → MixedIn B t u h (mapImpl I f) s
  | fold {u h : Bool} {S C δ β : Type} {I : Impl S C (List δ)} {s : S} (init : β) (f : β → δ → β) :
      MixedIn B t u h I s → MixedIn B t u h (foldImpl I init f) s
  | inter {u h : Bool} {S0 C0 δ0 S1 C1 δ1 : Type} {I0 : Impl S0 C0 δ0} {I1 : Impl S1 C1 δ1} {a : S0}
      {b : S1} : I0.N = I1.N → I0.D = I1.D →
      MixedIn B t u h I0 a → MixedIn B t u h I1 b → MixedIn B t u h (interImpl I0 I1) (a, b)
  | union {u h : Bool} {S0 C0 δ0 S1 C1 δ1 : Type} {I0 : Impl S0 C0 δ0} {I1 : Impl S1 C1 δ1} {a : S0}
      {b : S1} : I0.N = I1.N → I0.D = I1.D →
      MixedIn B t u h I0 a → MixedIn B t u h I1 b → MixedIn B t h h (unionImpl I0 I1) (a, b)
  | multiUnion {u h : Bool} {S C δ : Type} {I : Impl S C δ} {ss : List S} : ValidCfg I.N I.D →
      (∀ s ∈ ss, MixedIn B t u h I s) → MixedIn B t true true (multiUnionImpl I) ss
  | multiInter {h : Bool} {S C δ : Type} {I : Impl S C δ} {ss : List S} : ValidCfg I.N I.D →
      (∀ s ∈ ss, MixedIn B t true h I s) → MixedIn B t true true (B.multiInterImpl I) ss

theorem mixedIn_sturdy {B : Build} {u h : Bool} {S C δ : Type} {I : Impl S C δ} {s : S}
    (hm : MixedIn B t u h I s) : Sturdy t u h I s := by
  induction hm with
  | good hb hc =>
    obtain ⟨T, K, L, -⟩ := Build.isTreeC_of_le hc.le ((built_isTree hb).2 rfl)
    exact L.sturdy
  | user ht hr => exact tame_sturdy ht hr _
  | userSome ht hn hr => exact never_sturdy ht hn hr _
  | weaken _ hu hh ih => exact ih.mono hu hh
  | map f _ ih => exact map_sturdy f ih
  | fold z f _ ih => exact fold_sturdy z f ih
  | inter hN hD _ _ ia ib => exact inter_sturdy hN hD ia ib
  | union hN hD _ _ ia ib => exact union_sturdy hN hD ia ib
  | multiUnion hc _ ih => exact multiUnion_sturdy hc ih
  | multiInter hc _ ih => exact Build.multiInter_sturdy hc ih

section
variable {B : Build} {t u h : Bool} {S C δ : Type} {I : Impl S C δ} {s : S}

/-- **C85**: the checks of a debug build never fire in the crate's code that reads trees. Lookups, iterations and
`materialize` compiled in the build `B`, over any expression (its own methods compiled in `B`), do exactly what the code
compiled with checks does with that expression: the same results, or the same failure, coming out of a method of the
expression. -/
theorem C85_same (hm : MixedIn B t u h I s) :
    (∀ k, B.get I s k = I.get s k) ∧
    (∀ fuel n, B.iterRun I s fuel n = I.iterRun s fuel n) ∧
    (u = true → I.N = 1 → I.D ≤ 9 → Build.Dense.materialize B I s = materialize I s) :=
  ⟨Build.get_same (mixedIn_sturdy hm), Build.iterRun_same (mixedIn_sturdy hm),
    fun e => Build.Dense.materialize_same (e ▸ mixedIn_sturdy hm)⟩

/-- **C85**: no undefined behaviour of lookups in any build, over any expression. -/
theorem C85_get (hm : MixedIn B t u h I s) (k : Nat) : B.get I s k ≠ .error .ub := by
  rw [Build.get_same (mixedIn_sturdy hm)]
  exact sturdy_get (mixedIn_sturdy hm) k

/-- **C85**: an iteration in any build has no undefined behaviour (unless there is a `union` over a user tree that
answers `None`: finding 24), and yields items in strictly ascending order of index, then only `None`. -/
theorem C85_iter (hm : MixedIn B t true h I s) (fuel n : Nat) :
    B.iterRun I s fuel n ≠ .error .ub ∧
    ∀ l, B.iterRun I s fuel n = .ok l → ∃ (items : List (Nat × δ)) (m : Nat),
      l = items.map some ++ List.replicate m none ∧ (items.map Prod.fst).Pairwise (· < ·) ∧
      ∀ kd ∈ items, kd.1 < (64 * I.N) ^ I.D := by
  rw [Build.iterRun_same (mixedIn_sturdy hm)]
  refine ⟨(mixedIn_sturdy hm).iter fuel n, fun l hl => ?_⟩
  obtain ⟨items, m, e, hs⟩ := ((mixedIn_sturdy hm).forget.iter_all fuel n (fun e => by cases e)).2 l hl
  refine ⟨items, m, e, List.Pairwise.sublist hs List.pairwise_lt_range, fun kd hk => ?_⟩
  have := hs.subset (List.mem_map_of_mem hk)
  exact List.mem_range.1 this

/-- **C85**: `materialize` in any build: no undefined behaviour if the source's hierarchy is declared exact; and a tree
that is made holds data for strictly ascending keys, is consistent (`keys`, `values`, `get` and iteration agree on a
content `M`), and takes further operations. -/
theorem C85_materialize (hm : MixedIn B t true h I s) (hN : I.N = 1) (h9 : I.D ≤ 9) :
    (I.exact = true → Build.Dense.materialize B I s ≠ .error .ub) ∧
    ∀ t, Build.Dense.materialize B I s = .ok t → t.data.length ≤ 2 ^ 32 → ∃ M : Nat → Option δ,
      keyValues t = .ok (keysOf (64 ^ I.D) M, (valuesOf (64 ^ I.D) M).map some) ∧
      GetIterIs (impl δ I.D) t M ∧
      (I.exact = true → UsableInexact I.D t M) ∧ (I.exact = false → BlockUsableDense I.D t M) := by
  rw [Build.Dense.materialize_same (mixedIn_sturdy hm) hN h9]
  exact sturdy_materialize (mixedIn_sturdy hm) hN h9

/-- **C85**: if the methods of the user-written trees come back, so do the crate's, in every build. -/
theorem C85_ends (hm : MixedIn B true true h I s) :
    (∀ fuel n, 2 * (64 * I.N) ^ I.D ≤ fuel → B.iterRun I s fuel n ≠ .error .fuel) ∧
    (∀ k, B.get I s k ≠ .error .fuel) ∧
    (I.N = 1 → I.D ≤ 9 → Build.Dense.materialize B I s ≠ .error .fuel) := by
  have hs := mixedIn_sturdy hm
  obtain ⟨g1, g2, g3⟩ := sturdy_ends hs
  refine ⟨fun fuel n hf => ?_, fun k => ?_, fun hN h9 => ?_⟩
  · rw [Build.iterRun_same hs]; exact g1 fuel n hf
  · rw [Build.get_same hs]; exact g2 k
  · rw [Build.Dense.materialize_same hs hN h9]; exact g3 hN h9

end

/-- The hypotheses are met, in all four builds, by intersections of a compiled `DenseTree` with the liar, and by a
compiled `multi_intersection` of liars; iterated and looked up in a release build. -/
example : ∀ c b, (MixedIn ⟨c, b⟩ true true false (interImpl (Build.Dense.impl ⟨c, b⟩ Nat 2) (liar 1 2)) (exD, ()) ∧
      Build.iterRun ⟨c, b⟩ (interImpl (Build.Dense.impl ⟨c, b⟩ Nat 2) (liar 1 2)) (exD, ()) 9 4 =
        .ok [some (5, (56, 7)), some (64, (72, 3)), some (200, (202, 12)), none] ∧
      Build.get ⟨c, b⟩ (interImpl (Build.Dense.impl ⟨c, b⟩ Nat 2) (liar 1 2)) (exD, ()) 7 = .error .panic) ∧
    MixedIn ⟨c, b⟩ true true true (Build.multiInterImpl ⟨c, b⟩ (mapImpl (liar 1 2) (· * 2))) [(), ()] ∧
    Build.iterRun ⟨c, b⟩ (Build.multiInterImpl ⟨c, b⟩ (mapImpl (liar 1 2) (· * 2))) [(), ()] 9 2 =
      .ok [some (0, [4, 4]), some (1, [6, 6])] := by
  intro c b
  refine ⟨⟨.inter rfl rfl (.weaken (.good exD_built (.dense Nat 2)) (fun e => e) (fun _ => rfl))
      (.user (liar_tame liar_cfg) fun _ => liar_returns), ?_, ?_⟩,
    .multiInter liar_cfg fun _ _ => .map _ (.user (liar_tame liar_cfg) fun _ => liar_returns), ?_⟩ <;>
    cases c <;> cases b <;> decide +kernel

/-- Materializing in all four builds: a user tree that announces data it does not have ends in its own panic; an
intersection with the liar gives a tree. -/
example : ∀ c b, MixedIn ⟨c, b⟩ true true false (mapImpl (hollow 1 2) (· + 1)) () ∧
    Build.Dense.materialize ⟨c, b⟩ (mapImpl (hollow 1 2) (· + 1)) () = .error .panic ∧
    MixedIn ⟨c, b⟩ true true false (interImpl (Build.Dense.impl ⟨c, b⟩ Nat 2) (liar 1 2)) (exD, ()) ∧
    (do
      let t ← Build.Dense.materialize ⟨c, b⟩ (interImpl (Build.Dense.impl ⟨c, b⟩ Nat 2) (liar 1 2)) (exD, ())
      return t.keys.tail : R _) = .ok [5, 64, 200] := by
  intro c b
  refine ⟨.map _ (.user (hollow_tame liar_cfg) fun _ => hollow_returns), ?_,
    .inter rfl rfl (.weaken (.good exD_built (.dense Nat 2)) (fun e => e) (fun _ => rfl))
      (.user (liar_tame liar_cfg) fun _ => liar_returns), ?_⟩
  · cases c <;> cases b <;> rfl
  · cases c <;> cases b <;> decide +kernel

end Hibit.Props
