import Verif.Index
/-! # Lemmas about indices -/
namespace Hibit

theorem width_eq_pow {N : Nat} (h : N = 1 ∨ N = 2 ∨ N = 4) : width N = 2 ^ ilog2w N := by
  rcases h with rfl | rfl | rfl <;> decide

theorem ilog2w_pos {N : Nat} (h : N = 1 ∨ N = 2 ∨ N = 4) : 6 ≤ ilog2w N := by
  rcases h with rfl | rfl | rfl <;> decide

theorem width_pos {N : Nat} (h : N = 1 ∨ N = 2 ∨ N = 4) : 64 ≤ width N := by
  rcases h with rfl | rfl | rfl <;> decide

theorem ValidCfg.exp_le {N D : Nat} (h : ValidCfg N D) : ilog2w N * D ≤ 64 := by
  have := h.fits
  rw [width_eq_pow h.words, ← Nat.pow_mul] at this
  exact (Nat.pow_le_pow_iff_right (by decide)).1 this

theorem unpath_append (W : Nat) (p q : List Nat) :
    unpath W (p ++ q) = unpath W p * W ^ q.length + unpath W q := by
  have aux : ∀ (q : List Nat) (a : Nat),
      q.foldl (fun a d => a * W + d) a = a * W ^ q.length + q.foldl (fun a d => a * W + d) 0 := by
    intro q
    induction q with
    | nil => intro a; simp
    | cons d q ih =>
      intro a
      simp only [List.foldl_cons, List.length_cons]
      rw [ih (a * W + d), ih (0 * W + d)]
      rw [Nat.add_mul, Nat.zero_mul, Nat.zero_add, Nat.pow_succ]
      rw [Nat.mul_assoc, Nat.mul_comm W, Nat.add_assoc]
  simp only [unpath, List.foldl_append]
  rw [aux q]

theorem unpath_cons (W d : Nat) (q : List Nat) :
    unpath W (d :: q) = d * W ^ q.length + unpath W q := by
  have := unpath_append W [d] q
  simpa [unpath] using this

@[simp] theorem unpath_nil (W : Nat) : unpath W [] = 0 := rfl

@[simp] theorem path_length (W D i : Nat) : (path W D i).length = D := by
  induction D generalizing i with
  | zero => rfl
  | succ d ih => simp [path, ih]

theorem path_lt {W : Nat} : ∀ (D : Nat) {i : Nat}, i < W ^ D → ∀ x ∈ path W D i, x < W := by
  intro D
  induction D with
  | zero => intro i _ x hx; simp [path] at hx
  | succ d ih =>
    intro i hi x hx
    have hW : 0 < W := by
      rcases Nat.eq_zero_or_pos W with h | h
      · subst h; simp at hi
      · exact h
    have hp : 0 < W ^ d := Nat.pow_pos hW
    simp only [path, List.mem_cons] at hx
    rcases hx with rfl | hx
    · rw [Nat.div_lt_iff_lt_mul hp]; rw [Nat.pow_succ, Nat.mul_comm] at hi; exact hi
    · exact ih (Nat.mod_lt _ hp) x hx

theorem unpath_path (W : Nat) : ∀ (D i : Nat), i < W ^ D → unpath W (path W D i) = i := by
  intro D
  induction D with
  | zero => intro i h; simp at h; simp [path, h]
  | succ d ih =>
    intro i h
    have hW : 0 < W := by
      rcases Nat.eq_zero_or_pos W with h' | h'
      · subst h'; simp at h
      · exact h'
    have hp : 0 < W ^ d := Nat.pow_pos hW
    rw [path, unpath_cons, path_length, ih _ (Nat.mod_lt _ hp), Nat.mul_comm]
    exact Nat.div_add_mod i (W ^ d)

theorem unpath_lt {W : Nat} : ∀ {p : List Nat}, (∀ x ∈ p, x < W) → unpath W p < W ^ p.length := by
  intro p
  induction p with
  | nil => intro _; simp
  | cons d p ih =>
    intro h
    have h1 : d < W := h d (by simp)
    have h2 := ih (fun x hx => h x (by simp [hx]))
    rw [unpath_cons, List.length_cons, Nat.pow_succ]
    calc d * W ^ p.length + unpath W p < d * W ^ p.length + W ^ p.length := by omega
      _ = (d + 1) * W ^ p.length := by rw [Nat.add_mul, Nat.one_mul]
      _ ≤ W * W ^ p.length := Nat.mul_le_mul_right _ h1
      _ = W ^ p.length * W := Nat.mul_comm _ _

theorem path_unpath {W : Nat} : ∀ {p : List Nat}, (∀ x ∈ p, x < W) →
    path W p.length (unpath W p) = p := by
  intro p
  induction p with
  | nil => intro _; rfl
  | cons d p ih =>
    intro h
    have h2 := unpath_lt (W := W) (p := p) (fun x hx => h x (by simp [hx]))
    have hp : 0 < W ^ p.length := by omega
    rw [unpath_cons, List.length_cons, path]
    have e1 : (d * W ^ p.length + unpath W p) / W ^ p.length = d := by
      rw [Nat.mul_comm, Nat.mul_add_div hp, Nat.div_eq_of_lt h2, Nat.add_zero]
    have e2 : (d * W ^ p.length + unpath W p) % W ^ p.length = unpath W p := by
      rw [Nat.mul_comm, Nat.mul_add_mod, Nat.mod_eq_of_lt h2]
    rw [e1, e2, ih (fun x hx => h x (by simp [hx]))]

theorem path_injOn {W D i j : Nat} (hi : i < W ^ D) (hj : j < W ^ D)
    (h : path W D i = path W D j) : i = j := by
  rw [← unpath_path W D i hi, ← unpath_path W D j hj, h]

theorem lexLt_path_iff {W : Nat} : ∀ (D : Nat) {i j : Nat}, i < W ^ D → j < W ^ D →
    (lexLt (path W D i) (path W D j) ↔ i < j) := by
  intro D
  induction D with
  | zero => intro i j hi hj; simp at hi hj; simp [path, lexLt, hi, hj]
  | succ d ih =>
    intro i j hi hj
    have hW : 0 < W := by
      rcases Nat.eq_zero_or_pos W with h | h
      · subst h; simp at hi
      · exact h
    have hp : 0 < W ^ d := Nat.pow_pos hW
    simp only [path, lexLt, ih (Nat.mod_lt i hp) (Nat.mod_lt j hp)]
    have ei := Nat.div_add_mod i (W ^ d)
    have ej := Nat.div_add_mod j (W ^ d)
    have mi := Nat.mod_lt i hp
    have mj := Nat.mod_lt j hp
    generalize W ^ d = P at *
    generalize i / P = a at *
    generalize j / P = b at *
    generalize i % P = r at *
    generalize j % P = t at *
    subst ei ej
    constructor
    · rintro (h | ⟨h1, h2⟩)
      · have : P * (a + 1) ≤ P * b := Nat.mul_le_mul_left _ h
        rw [Nat.mul_add] at this
        omega
      · subst h1; omega
    · intro h
      rcases Nat.lt_trichotomy a b with hl | he | hg
      · exact Or.inl hl
      · right; subst he; exact ⟨rfl, by omega⟩
      · exfalso
        have : P * (b + 1) ≤ P * a := Nat.mul_le_mul_left _ hg
        rw [Nat.mul_add] at this
        omega

theorem path_concat (W : Nat) (hW : 0 < W) : ∀ (D i : Nat), i < W ^ (D + 1) →
    path W (D + 1) i = path W D (i / W) ++ [i % W] := by
  intro D
  induction D with
  | zero => intro i hi; simp at hi; simp [path, Nat.mod_eq_of_lt hi]
  | succ d ih =>
    intro i hi
    have hp : 0 < W ^ (d + 1) := Nat.pow_pos hW
    rw [path, ih _ (Nat.mod_lt _ hp), path]
    have e1 : i / W ^ (d + 1) = i / W / W ^ d := by
      rw [Nat.pow_succ, Nat.mul_comm, Nat.div_div_eq_div_mul]
    have e2 : i % W ^ (d + 1) / W = i / W % W ^ d := by
      rw [Nat.pow_succ, Nat.mul_comm, Nat.mod_mul_right_div_self]
    have e3 : i % W ^ (d + 1) % W = i % W := by
      rw [Nat.mod_mod_of_dvd]
      exact ⟨W ^ d, by rw [Nat.pow_succ, Nat.mul_comm]⟩
    rw [e1, e2, e3]
    rfl

/-! ### The code -/

theorem levelIndicesLoop_eq {N : Nat} (hN : N = 1 ∨ N = 2 ∨ N = 4) : ∀ (n i : Nat),
    ilog2w N * (n + 1) ≤ 64 →
    levelIndicesLoop (ilog2w N) n i =
      .ok ((path (width N) (n + 1) i)) := by
  intro n
  induction n with
  | zero => intro i _; simp [levelIndicesLoop, path]
  | succ n ih =>
    intro i h
    have h6 := ilog2w_pos hN
    have hlt : ilog2w N * (n + 1) < 64 := by
      have : ilog2w N * (n + 1 + 1) = ilog2w N * (n + 1) + ilog2w N := by rw [Nat.mul_succ]
      omega
    have hpow : width N ^ (n + 1) = 2 ^ (ilog2w N * (n + 1)) := by
      rw [width_eq_pow hN, ← Nat.pow_mul]
    simp only [levelIndicesLoop, shAmt, if_pos hlt, bind_ok, Nat.shiftRight_eq_div_pow,
      Nat.one_shiftLeft, Nat.and_two_pow_sub_one_eq_mod]
    rw [ih _ (by omega), bind_ok, pure_eq_ok, ← hpow]
    rfl

theorem levelIndices_eq {N D : Nat} (h : ValidCfg N D) (i : Nat) :
    levelIndices N D i = .ok (path (width N) D i) := by
  match D, h with
  | 0, h => exact absurd h.depth (by decide)
  | d + 1, h => exact levelIndicesLoop_eq h.words d i h.exp_le

theorem dataBlockIndexLoop_eq {N D : Nat} (h : ValidCfg N D) (li : List Nat) :
    ∀ (todo n : Nat) (q : List Nat) (acc : Nat), q.length = todo →
      (∀ x ∈ q, x < width N) → li.drop n = q ++ li.drop (n + todo) → n + todo + 1 = D →
      acc + unpath (width N) q * width N < usizeMod →
      dataBlockIndexLoop (ilog2w N) D li todo n acc =
        .ok (acc + unpath (width N) q * width N) := by
  intro todo
  induction todo with
  | zero =>
    intro n q acc hq hlt hd hD hm
    have : q = [] := List.length_eq_zero_iff.1 hq
    subst this
    simp [dataBlockIndexLoop]
  | succ t ih =>
    intro n q acc hq hlt hd hD hm
    match q, hq with
    | x :: q, hq =>
      simp only [List.length_cons, Nat.add_right_cancel_iff] at hq
      have hx : li[n]? = some x := by
        have := congrArg (fun l => l[0]?) hd
        simpa using this
      have hexp := h.exp_le
      have h6 := ilog2w_pos h.words
      have he : D - n - 1 = t + 1 := by omega
      have hsh : ilog2w N * (t + 1) < 64 := by
        have : ilog2w N * D = ilog2w N * (t + 1) + ilog2w N * (n + 1) := by
          rw [← Nat.mul_add]; congr 1; omega
        have : 6 * 1 ≤ ilog2w N * (n + 1) := Nat.mul_le_mul h6 (by omega)
        omega
      have hpow : 2 ^ (ilog2w N * (t + 1)) = width N ^ t * width N := by
        rw [width_eq_pow h.words, ← Nat.pow_mul, ← Nat.pow_add, Nat.mul_succ]
      have hup : unpath (width N) (x :: q) * width N =
          x * (width N ^ t * width N) + unpath (width N) q * width N := by
        rw [unpath_cons, hq, Nat.add_mul, Nat.mul_assoc]
      rw [hup] at hm ⊢
      have hmod : x * (width N ^ t * width N) % usizeMod = x * (width N ^ t * width N) :=
        Nat.mod_eq_of_lt (by omega)
      simp only [dataBlockIndexLoop, getP_some hx, bind_ok, shAmt, he, if_pos hsh,
        Nat.shiftLeft_eq, hpow, hmod]
      rw [if_pos (by omega)]
      rw [ih (n + 1) q _ hq (fun y hy => hlt y (by simp [hy])) ?_ (by omega) (by omega)]
      · congr 1; omega
      · have := congrArg List.tail hd
        simp only [List.tail_drop, List.cons_append, List.tail_cons] at this
        rw [this]; congr 2; omega

theorem dataBlockIndex_eq {N D : Nat} (h : ValidCfg N D) {li q : List Nat} {k : Nat}
    (hq : q.length + 1 = D) (hlt : ∀ x ∈ q, x < width N) (hk : k < width N)
    (hli : li.take q.length = q) :
    dataBlockIndex N D li k = .ok (unpath (width N) (q ++ [k])) := by
  unfold dataBlockIndex
  have hlen : q.length ≤ li.length := by
    have := congrArg List.length hli
    simp at this; omega
  have hub : unpath (width N) (q ++ [k]) < usizeMod := by
    have := unpath_lt (W := width N) (p := q ++ [k]) (by
      intro x hx; simp at hx; rcases hx with hx | rfl
      · exact hlt x hx
      · exact hk)
    have hf := h.fits
    have e : (q ++ [k]).length = D := by simp [hq]
    rw [e] at this
    omega
  have he : unpath (width N) (q ++ [k]) = k + unpath (width N) q * width N := by
    rw [unpath_append]; simp [unpath]; omega
  rw [he] at hub ⊢
  apply dataBlockIndexLoop_eq h li (D - 1) 0 q k (by omega) hlt ?_ (by omega) hub
  have e : 0 + (D - 1) = q.length := by omega
  rw [e]
  conv => lhs; rw [List.drop_zero, ← List.take_append_drop q.length li]
  rw [hli]

end Hibit
