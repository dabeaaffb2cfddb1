import Verif.Dense.Remove
/-!
# DenseTree: insertion of a new key when the data vector has 2^32 entries

dense_tree.rs:28 `type DataIndex = u32` and dense_tree.rs:167-171: the new cell stores
`data.len() as u32`, which is 0 when the vector has 2^32 entries.
-/
namespace Hibit.Dense
open Hibit

variable {α : Type} {ex : List Nat → Prop} {D : Nat} {t : DT α} {M : Nat → Option α}

/-- What is left after inserting a new key into a full tree. -/
theorem insert_full (R : DRep ex D t M) (h1 : 1 ≤ D) (h9 : D ≤ 9) {k : Nat} (hk : k < 64 ^ D)
    (hM : M k = none) (hfull : t.data.length = 2 ^ 32) (v : α) :
    ∃ out, insert D t k v = .ok out ∧ out.dropped = [] ∧
      out.tree.data = t.data ++ [some v] ∧ out.tree.keys = t.keys ++ [k] ∧
      treeData D out.tree k (path 64 D k) = .ok none ∧
      (∀ k', k' < 64 ^ D → k' ≠ k → treeData D out.tree k' (path 64 D k') = .ok (M k')) ∧
      (2 ≤ D → remove D out.tree k = .ok (out.tree, none)) ∧
      (∀ ins w, getOrInsertImpl D out.tree k ins w = .error .ub) := by
  obtain ⟨loc, K, S⟩ := R
  have hPv := validPath_path hk
  have hPl := path_length 64 D k
  have hden := S.den_path hPv hPl
  have hupath := unpath_path 64 D k hk
  rw [hupath] at hden
  obtain ⟨w, loc', b, e1, T1, hb, hs, hl⟩ := insertWalk_spec S.tree h9 h1 hPv hPl
  have hpinj : ∀ k', k' < 64 ^ D → (path 64 D k' = path 64 D k ↔ k' = k) :=
    fun k' hk' => ⟨fun e => path_injOn hk' hk e, fun e => by rw [e]⟩
  generalize path 64 D k = P at *
  rcases eq_nil_or_append P with rfl | ⟨p, i, rfl⟩
  · simp at hPl; omega
  have hpl : p.length + 1 = D := by simpa using hPl
  have htk : (p ++ [i]).take (D - 1) = p := by
    rw [List.take_append_of_le_length (by omega), List.take_of_length_le (by omega)]
  have hlev : levelIndices 1 D k = .ok (p ++ [i]) := by
    rw [levelIndices_ok h1 h9, (hpinj k hk).2 rfl]
  have hp2 := hb
  rw [htk] at hp2 hs
  have hread := read_slot T1 hp2 hs
  have hlast : (p ++ [i]).getLast? = some i := by simp
  obtain ⟨hpv, hi⟩ := ValidPath.of_append hPv
  obtain ⟨n, hd, -, -, -, hrep⟩ := T1.rep.deref hp2
  have hc := hrep.contains hi
  rw [cellsOf_term hpl] at hc
  have hK : K (p ++ [i]) = none := by
    cases hK : K (p ++ [i]) with
    | none => rfl
    | some d =>
      obtain ⟨_, ov, g2⟩ := S.data.value hK
      rw [hM, hK] at hden
      simp [g2] at hden
  rw [hK] at hc
  simp only [Option.map_none, Option.isSome_none] at hc
  obtain ⟨h', x, a', w', e2, e3, T2⟩ := insertTerm_spec T1 hPv hpl hp2 hs hK
    (t.data.length % 2 ^ 32)
  have hz : t.data.length % 2 ^ 32 = 0 := by rw [hfull]
  rw [hz] at e2 T2
  have hk0 : (t.keys ++ [k])[0]? = some (usizeMod - 1) := by
    rw [getElem?_append_single, S.data.len, if_neg (by omega)]; exact S.data.key0
  have hd0 : (t.data ++ [some v])[0]? = some none := by
    rw [getElem?_append_single, if_neg (by omega)]; exact S.data.data0
  have hkey : ∀ k', k' < 64 ^ D → usizeMod - 1 ≠ k' := by
    intro k' hk'
    have := pow_lt_usize h9
    omega
  have hl2 : upd loc' p (some a') p = some a' := by simp
  have hK2 : upd K (p ++ [i]) (some 0) (p ++ [i]) = some 0 := by simp
  have hterm := T2.terminal_live h1 (i := i) hl2 hpl
  have hidx := T2.idx hl2 hK2
  refine ⟨⟨⟨w'.heap, w'.root, t.data ++ [some v], t.keys ++ [k]⟩, t.data.length, [], true⟩,
    ?_, rfl, rfl, rfl, ?_, ?_, ?_, ?_⟩
  · unfold insert
    rw [indexFrom_ok h9, if_pos hk]
    simp only [bind_ok]
    unfold getOrInsertImpl
    simp only [hlev, bind_ok, e1, hread, hlast, unwrapU, hd, hc, Bool.false_eq_true, if_false,
      hz, e2, e3, pure_eq_ok]
  · unfold treeData
    simp only [hterm, bind_ok, hidx, Cell.asIdx, getU_some hk0, if_neg (hkey k hk), pure_eq_ok]
  · intro k' hk' hne
    have hPv' := validPath_path hk'
    have hPl' := path_length 64 D k'
    have hden' := S.den_path hPv' hPl'
    have hup' := unpath_path 64 D k' hk'
    rw [hup'] at hden'
    have hPne : path 64 D k' ≠ p ++ [i] := fun e => hne ((hpinj k' hk').1 e)
    cases hK' : K (path 64 D k') with
    | some d =>
      obtain ⟨g1, ov, g2⟩ := S.data.value hK'
      obtain ⟨g3, g4⟩ := S.data.keyOf _ _ hK'
      have hK2' : upd K (p ++ [i]) (some 0) (path 64 D k') = some d := by
        rw [upd_ne _ _ hPne]; exact hK'
      generalize path 64 D k' = Q at *
      rcases eq_nil_or_append Q with rfl | ⟨q, j, rfl⟩
      · simp at hPl'; omega
      have hql : q.length + 1 = D := by simpa using hPl'
      obtain ⟨aq, haq⟩ := T2.klive _ _ _ hK2'
      have et := T2.terminal_live h1 (i := j) haq hql
      have ei := T2.idx haq hK2'
      have ek : (t.keys ++ [k])[d]? = some k' := by
        rw [getElem?_append_single, S.data.len, if_neg (by omega), g4, hup']
      have ed : (t.data ++ [some v])[d]? = some (some ov) := by
        rw [getElem?_append_single, if_neg (by omega)]; exact g2
      unfold treeData
      simp only [et, bind_ok, ei, Cell.asIdx, getU_some ek, if_true, getU_some ed, unwrapU, pure_eq_ok]
      rw [hden', hK']
      simp [g2]
    | none =>
      obtain ⟨q, j, f1, f2, f3⟩ := T2.terminal_any h9 h1 hPv' hPl'
      obtain ⟨d, f4, f5⟩ := T2.wpos_idx h9 h1 f2 f3
      have hdk : ∃ key, (t.keys ++ [k])[d]? = some key ∧ key ≠ k' := by
        rcases f5 with rfl | ⟨Q, hQ⟩
        · exact ⟨_, hk0, hkey k' hk'⟩
        · by_cases eQ : Q = p ++ [i]
          · subst eQ
            rw [hK2] at hQ
            cases hQ
            exact ⟨_, hk0, hkey k' hk'⟩
          · rw [upd_ne _ _ eQ] at hQ
            obtain ⟨key, g1, g2⟩ := S.wrong_key h9 hPv' hPl' hK' (.inr ⟨Q, hQ⟩)
            have := (S.data.value hQ).1
            refine ⟨key, ?_, by rw [hup'] at g2; exact g2⟩
            rw [getElem?_append_single, S.data.len, if_neg (by omega)]; exact g1
      obtain ⟨key, g1, g2⟩ := hdk
      unfold treeData
      simp only [f1, bind_ok, f4, Cell.asIdx, getU_some g1, if_neg g2, pure_eq_ok]
      rw [hden', hK']
      rfl
  · intro h2
    have hmap : (List.range (D - 1)).map (· + 0) = List.range (D - 1) := by simp
    obtain ⟨r, hr, hroot⟩ := T2.root
    have htk2 : ∀ m, m ≤ p.length → (p ++ [i]).take m = p.take m :=
      fun m hm => List.take_append_of_le_length hm
    obtain ⟨qs, q1, q2, q3⟩ := T2.branch_live (P := p ++ [i]) (D - 1) 0 r (by simp; omega)
      (by simpa using hr) (fun m hm => by
        rw [htk2 m (by omega)]; exact T2.take_live _ rfl hl2 m)
    rw [hmap] at q1
    have hlastq : qs.getLast? = some (.heap a') := by
      obtain ⟨c, hc2, hc1⟩ := q3 (D - 2) (by omega)
      rw [List.getLast?_eq_getElem?, q2, show D - 1 - 1 = D - 2 by omega, hc1]
      rw [show 0 + (D - 2) + 1 = D - 1 by omega, htk, hl2] at hc2
      cases hc2
      rfl
    unfold remove getBranch
    rw [indexFrom_ok h9, if_pos hk]
    simp only [bind_ok, hlev, hroot, q1, hlastq, unwrapU, hlast, hidx, Cell.asIdx, getU_some hk0,
      if_neg (hkey k hk), pure_eq_ok]
  · intro ins w2
    obtain ⟨w3, loc3, b3, f1, T3, hb3, hs3, -⟩ := insertWalk_spec
      (t := ⟨w'.heap, w'.root, t.data ++ [some v], t.keys ++ [k]⟩) T2 h9 h1 hPv hPl
    have hb4 := hb3
    rw [htk] at hb4 hs3
    have hread3 := read_slot T3 hb4 hs3
    obtain ⟨n3, hd3, -, -, -, hrep3⟩ := T3.rep.deref hb4
    have hc3 := hrep3.contains hi
    rw [cellsOf_term hpl, hK2] at hc3
    simp only [Option.map_some, Option.isSome_some] at hc3
    have hidx3 := T3.idx hb4 hK2
    unfold getOrInsertImpl
    simp only [hlev, bind_ok, f1, hread3, hlast, unwrapU, hd3, hc3, if_true, hidx3, Cell.asIdx,
      getU_some hd0, bind_err]
    cases ins <;> rfl

end Hibit.Dense
