import Verif.Props.Tree
/-!
# A bound for the rounds of the loop of `next`
-/
namespace Hibit

section
variable {S Cur δ : Type} {I : Impl S Cur δ} {s : S}

/-- The remaining bits of the levels below a level without any. -/
theorem mu_root {W D : Nat} {l : List BitsIter} (h : ∀ j, 0 < j → remAt l j = []) : ∀ n,
    mu W D l (n + 1) = (remAt l 0).length * wt W (D - 1)
  | 0 => by simp [mu]
  | n + 1 => by
    have := mu_root (W := W) (D := D) h n
    rw [mu, this, h (n + 1) (by omega)]
    simp

/-- One call of `next` needs at most `wt W D` rounds of its loop, `W` the width of a node and `D` the depth. -/
theorem iterRun_bound {M : Nat → Option δ} (h : IsTree I s M) {fuel : Nat} (hf : wt (width I.N) I.D ≤ fuel) (n : Nat) :
    I.iterRun s fuel n = .ok ((List.range n).map (fun k => (listing (width I.N ^ I.D) M)[k]?)) := by
  obtain ⟨T, K, L, hc⟩ := h
  obtain ⟨st, e, hinv, hr⟩ := iterNew_spec L
  have hD : 0 < I.D := L.cfg.depth
  have hN : 0 < I.N := by rcases L.cfg.words with e | e | e <;> omega
  have hmu : mu (width I.N) I.D st.iters I.D < fuel := by
    obtain ⟨c, hnew, hci⟩ := L.new_ok
    obtain ⟨m, c', hsel, hml, hmb, hpos⟩ := L.selectU_root c 0 hci rfl
    have hlt : 0 < (List.replicate I.D (BitsIter.empty I.N)).length := by simpa using hD
    have est : st = ⟨(List.replicate I.D (BitsIter.empty I.N)).set 0 (intoBitsIter m),
        List.replicate (I.D - 1) (usizeMod - 1), c'⟩ := by
      simp only [Impl.iterNew, hnew, bind_ok, hsel] at e
      rw [if_neg (by omega)] at e
      cases e
      rfl
    have habove : ∀ j, 0 < j → remAt st.iters j = [] := by
      intro j hj
      rw [est]
      show remAt (List.set _ 0 _) j = []
      rw [remAt_set_ne (by omega)]
      simp only [remAt, List.getElem?_replicate]
      split
      · simp [empty_rem hN]
      · rfl
    have hlen : (remAt st.iters 0).length ≤ width I.N := by
      rw [est]
      show (remAt (List.set _ 0 _) 0).length ≤ _
      rw [remAt_set_self hlt, intoBitsIter_rem (by omega)]
      have := List.length_filter_le (fun j => m.bit j) (List.range (64 * m.length))
      rw [List.length_range, hml] at this
      unfold Mask.ones
      rw [hml]
      exact this
    obtain ⟨d, hd⟩ : ∃ d, I.D = d + 1 := ⟨I.D - 1, by omega⟩
    rw [hd] at hf ⊢
    rw [mu_root habove d]
    simp only [wt, Nat.add_sub_cancel] at hf ⊢
    have := Nat.mul_le_mul_right (wt (width I.N) d) hlen
    omega
  simp only [Impl.iterRun, e, bind_ok]
  rw [iterTake_spec L fuel n st [] hinv hmu, hr, entries_eq hc]

end
end Hibit
