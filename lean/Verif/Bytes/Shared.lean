import Verif.Bytes.Mat
/-!
# Several DenseTrees in one memory: separation

The proofs of this file keep, for every tree, the set of addresses of its blocks, and show that the
sets stay disjoint from each other and from the blocks of the rest of the program.
-/
namespace Hibit.Bytes
open Hibit Hibit.Dense

variable {α : Type} {ρ ρ' : Ren} {F : Mem} {h h' : Heap} {bh bh' : BHeap}

/-- The addresses of the blocks that represent the heap `h`. -/
def Own (ρ : Ren) (h : Heap) (x : Nat) : Prop := ∃ a n, h.node a = some n ∧ ρ a = some x

/-- The memory without the blocks at the addresses `O`. -/
noncomputable def outside (O : Nat → Prop) (m : Mem) : Mem := fun x =>
  open Classical in if O x then none else m x

theorem outside_in {O : Nat → Prop} {m : Mem} {x : Nat} (h : O x) : outside O m x = none := if_pos h
theorem outside_out {O : Nat → Prop} {m : Mem} {x : Nat} (h : ¬ O x) : outside O m x = m x := if_neg h

theorem HeapRep.own_live (H : HeapRep ρ F h bh) {x : Nat} (hx : Own ρ h x) :
    ∃ b, bh.block x = some b ∧ F x = none := by
  obtain ⟨a, n, hn, ha⟩ := hx
  obtain ⟨a', b, e, hb, hF, -⟩ := H.live a n hn
  rw [ha] at e
  cases e
  exact ⟨b, hb, hF⟩

theorem HeapRep.own_frame (H : HeapRep ρ F h bh) {x : Nat} (hx : ¬ Own ρ h x) : bh.block x = F x :=
  H.frame x fun a n hn e => hx ⟨a, n, hn, e⟩

/-- Only the blocks of the heap itself matter. -/
theorem HeapRep.keep (H : HeapRep ρ F h bh) (hk : ∀ x, Own ρ h x → bh'.block x = bh.block x)
    (hf : Finite bh'.block) : HeapRep ρ (outside (Own ρ h) bh'.block) h bh' where
  dom := H.dom
  live := fun a n hn => by
    obtain ⟨a', b, e, hb, -, r⟩ := H.live a n hn
    exact ⟨a', b, e, (hk a' ⟨a, n, hn, e⟩).trans hb, outside_in ⟨a, n, hn, e⟩, r⟩
  inj := H.inj
  frame := fun x hx => (outside_out (fun ⟨a, n, hn, e⟩ => hx a n hn e)).symm
  fin := hf

/-- The memory `m` consists of the blocks of trees (tree `i` at the addresses `O i`) and the blocks `E` of
the rest of the program. -/
structure Sep (m E : Mem) (O : Nat → Nat → Prop) : Prop where
  live : ∀ i x, O i x → m x ≠ none
  disj : ∀ i j x, O i x → O j x → i = j
  env : ∀ i x, O i x → E x = none
  rest : ∀ x, (∀ i, ¬ O i x) → m x = E x

/-- Tree `i` may change its blocks, free them, and allocate where nothing else is. -/
theorem Sep.step {m m' E : Mem} {O : Nat → Nat → Prop} (S : Sep m E O) (i : Nat) {O' : Nat → Prop}
    (hout : ∀ x, ¬ O' x → m' x = outside (O i) m x) (hin : ∀ x, O' x → outside (O i) m x = none)
    (hlive : ∀ x, O' x → m' x ≠ none) :
    Sep m' E (upd O i O') ∧ ∀ j, j ≠ i → ∀ x, O j x → m' x = m x := by
  have hnot : ∀ j, j ≠ i → ∀ x, O j x → ¬ O i x := fun j hj x h1 h2 => hj (S.disj j i x h1 h2)
  have hnot' : ∀ j, j ≠ i → ∀ x, O j x → ¬ O' x := fun j hj x h1 h2 => by
    have := hin x h2
    rw [outside_out (hnot j hj x h1)] at this
    exact S.live j x h1 this
  have hkeep : ∀ j, j ≠ i → ∀ x, O j x → m' x = m x := fun j hj x h1 => by
    rw [hout x (hnot' j hj x h1), outside_out (hnot j hj x h1)]
  refine ⟨⟨fun j x hx => ?_, fun j k x hj hk => ?_, fun j x hx => ?_, fun x hx => ?_⟩, hkeep⟩
  · by_cases e : j = i
    · simp only [upd, if_pos e] at hx; exact hlive x hx
    · simp only [upd, if_neg e] at hx
      rw [hkeep j e x hx]
      exact S.live j x hx
  · by_cases e1 : j = i
    · by_cases e2 : k = i
      · rw [e1, e2]
      · simp only [upd, if_pos e1] at hj
        simp only [upd, if_neg e2] at hk
        exact absurd hj (hnot' k e2 x hk)
    · by_cases e2 : k = i
      · simp only [upd, if_neg e1] at hj
        simp only [upd, if_pos e2] at hk
        exact absurd hk (hnot' j e1 x hj)
      · simp only [upd, if_neg e1] at hj
        simp only [upd, if_neg e2] at hk
        exact S.disj j k x hj hk
  · by_cases e : j = i
    · simp only [upd, if_pos e] at hx
      have := hin x hx
      by_cases hi : O i x
      · exact S.env i x hi
      · rw [outside_out hi] at this
        rw [← S.rest x fun k hk => ?_, this]
        by_cases ek : k = i
        · subst ek; exact hi hk
        · exact S.live k x hk this
    · simp only [upd, if_neg e] at hx; exact S.env j x hx
  · have h1 := hx i
    simp only [upd, if_pos] at h1
    rw [hout x h1]
    by_cases hi : O i x
    · rw [outside_in hi, S.env i x hi]
    · rw [outside_out hi]
      refine S.rest x fun k hk => ?_
      have := hx k
      by_cases ek : k = i
      · subst ek; exact hi hk
      · simp only [upd, if_neg ek] at this; exact this hk

/-- The rest of the program may do what it likes with its own blocks, and allocate. -/
theorem Sep.envStep {m m' E E' : Mem} {O : Nat → Nat → Prop} (S : Sep m E O)
    (hk : ∀ i x, O i x → m' x = m x ∧ E' x = none) (ho : ∀ x, (∀ i, ¬ O i x) → m' x = E' x) :
    Sep m' E' O :=
  ⟨fun i x hx => by rw [(hk i x hx).1]; exact S.live i x hx, S.disj, fun i x hx => (hk i x hx).2, ho⟩

end Hibit.Bytes
