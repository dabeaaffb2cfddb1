import Verif.ListLemmas
import Verif.Dense.Lawful
import Verif.MapSpec
/-!
# DenseTree: `drop`, `key_values`
-/
namespace Hibit.Dense
open Hibit

variable {α : Type} {ex : List Nat → Prop} {D : Nat} {t : DT α} {M : Nat → Option α} {loc K : List Nat → Option Nat}
  {F : List Nat → Nat → Option Cell}

theorem prefix_take {p q : List Nat} (h : p <+: q) : q.take p.length = p := by
  obtain ⟨r, rfl⟩ := h
  exact List.take_left' rfl

theorem prefix_cases {p q : List Nat} (h : p <+: q) : q = p ∨ ∃ i, p ++ [i] <+: q := by
  obtain ⟨r, rfl⟩ := h
  cases r with
  | nil => exact .inl (by simp)
  | cons i r => exact .inr ⟨i, r, by simp⟩

theorem prefix_antisymm_len {p q : List Nat} {i j : Nat} (h1 : p ++ [i] <+: q)
    (h2 : p ++ [j] <+: q) : i = j := by
  have a := prefix_take h1
  have b := prefix_take h2
  simp only [List.length_append, List.length_singleton] at a b
  rw [a, append_singleton_inj] at b
  exact b.2

/-- node.rs:359-373: everything below (and including) the node at `p` is freed, nothing else. -/
theorem dropTree_spec : ∀ (m : Nat) (p : List Nat) (h : Heap) (loc : List Nat → Option Nat)
    (a : Nat), p.length + m + 1 = D → loc p = some a → HRep D h loc F →
    (∀ q b, p <+: q → loc q = some b → ∀ k, k < 64 → F q k = cellsOf D loc K q k) →
    (∀ q b, p <+: q → loc q = some b → ValidPath 64 q ∧ q.length < D) →
    (∀ q b k, p <+: q → loc q = some b → p.length ≤ k → ∃ c, loc (q.take k) = some c) →
    ∃ h' loc', dropNodeWithChilds (m + 1) h (.heap a) = .ok h' ∧ HRep D h' loc' F ∧
      (∀ q, p <+: q → loc' q = none) ∧ (∀ q, ¬ p <+: q → loc' q = loc q) := by
  intro m
  induction m with
  | zero =>
    intro p h loc a hm ha H _ hv _
    obtain ⟨h', e1, H1⟩ := H.drop ha
    have hkind : kindOf D p = .term := by unfold kindOf; rw [if_neg (by omega)]
    rw [hkind] at e1
    refine ⟨h', _, e1, H1, ?_, ?_⟩
    · intro q hq
      by_cases e : q = p
      · subst e; simp
      · rw [upd_ne _ _ e]
        cases hl : loc q with
        | none => rfl
        | some b =>
          have := (hv q b hq hl).2
          exact absurd (hq.eq_of_length_le (by omega)).symm e
    · intro q hq
      rw [upd_ne]
      intro e; rw [e] at hq; exact hq (List.prefix_refl p)
  | succ m ih =>
    intro p h loc a hm ha H hcoh hv hcl
    obtain ⟨n, e1, -, -, hk, hrep⟩ := H.deref ha
    have hbr : p.length + 1 < D := by omega
    have hkind : kindOf D p = .branch := by unfold kindOf; rw [if_pos hbr]
    have hone : ∀ i, i ∈ Mask.ones [n.mask] → i < 64 ∧ ∃ b, loc (p ++ [i]) = some b ∧
        F p i = some (.ptr (.heap b)) := by
      intro i hi
      rw [mem_ones] at hi
      have h64 : i < 64 := by simpa using bit_lt hi
      rw [bit_single, if_pos h64, hrep.bits i h64] at hi
      have hc := hcoh p a (List.prefix_refl p) ha i h64
      rw [cellsOf_branch hbr] at hc
      cases e : loc (p ++ [i]) with
      | none => rw [hc, e] at hi; cases hi
      | some b => rw [e] at hc; exact ⟨h64, b, rfl, hc⟩
    -- the loop over the children
    have loop : ∀ (is : List Nat) (h1 : Heap) (loc1 : List Nat → Option Nat), is.Nodup →
        (∀ i ∈ is, i ∈ Mask.ones [n.mask]) → HRep D h1 loc1 F → loc1 p = some a →
        (∀ i ∈ is, ∀ q, p ++ [i] <+: q → loc1 q = loc q) →
        ∃ h2 loc2, (is.foldlM (fun h i => do
            let c ← getChild h (.heap a) i
            let q ← c.asPtr
            dropNodeWithChilds (m + 1) h q) h1 : R Heap) = .ok h2 ∧ HRep D h2 loc2 F ∧
          (∀ i ∈ is, ∀ q, p ++ [i] <+: q → loc2 q = none) ∧
          (∀ q, (∀ i ∈ is, ¬ p ++ [i] <+: q) → loc2 q = loc1 q) := by
      intro is
      induction is with
      | nil =>
        intro h1 loc1 _ _ H1 _ _
        exact ⟨h1, loc1, rfl, H1, by simp, fun q _ => rfl⟩
      | cons i is ih2 =>
        intro h1 loc1 hnd hmem H1 ha1 hsame
        obtain ⟨h64, b, hb, hF⟩ := hone i (hmem i (by simp))
        obtain ⟨c, g1, g2, -⟩ := H1.getChild ha1 h64
        have hc := g2 _ hF
        subst hc
        have hself := hsame i (by simp)
        have htk : ∀ (q : List Nat) (k : Nat), p ++ [i] <+: q → p.length + 1 ≤ k →
            p ++ [i] <+: q.take k := by
          intro q k hq hk
          rw [List.prefix_take_iff]
          exact ⟨hq, by simpa using hk⟩
        obtain ⟨h2, loc2, e2, H2, f1, f2⟩ := ih (p ++ [i]) h1 loc1 b (by simp; omega)
          (by rw [hself _ (List.prefix_refl _)]; exact hb) H1 (by
            intro q x hq hx k hk
            have hpq : p <+: q := (List.prefix_append p [i]).trans hq
            rw [hself q hq] at hx
            rw [hcoh q x hpq hx k hk]
            unfold cellsOf
            split
            · rw [hself _ (hq.trans (List.prefix_append q [k]))]
            · rfl) (by
            intro q x hq hx
            rw [hself q hq] at hx
            exact hv q x ((List.prefix_append p [i]).trans hq) hx) (by
            intro q x k hq hx hk
            simp only [List.length_append, List.length_singleton] at hk
            rw [hself q hq] at hx
            rw [hself _ (htk q k hq hk)]
            exact hcl q x k ((List.prefix_append p [i]).trans hq) hx (by omega))
        have hpi : ¬ p ++ [i] <+: p := by
          intro h; have := h.length_le; simp at this; omega
        obtain ⟨h3, loc3, e3, H3, f3, f4⟩ := ih2 h2 loc2 (List.nodup_cons.1 hnd).2
          (fun j hj => hmem j (by simp [hj])) H2 (by rw [f2 p hpi]; exact ha1) (by
            intro j hj q hq
            have hij : ¬ p ++ [i] <+: q := by
              intro h
              have := prefix_antisymm_len h hq
              subst this
              exact (List.nodup_cons.1 hnd).1 hj
            rw [f2 q hij]
            exact hsame j (by simp [hj]) q hq)
        refine ⟨h3, loc3, ?_, H3, ?_, ?_⟩
        · simp only [List.foldlM_cons, g1, bind_ok, Cell.asPtr, e2]
          exact e3
        · intro j hj q hq
          rcases List.mem_cons.1 hj with rfl | hj
          · rw [f4 q ?_, f1 q hq]
            intro j' hj' h
            have := prefix_antisymm_len h hq
            subst this
            exact (List.nodup_cons.1 hnd).1 hj'
          · exact f3 j hj q hq
        · intro q hq
          rw [f4 q (fun j hj => hq j (by simp [hj])), f2 q (hq i (by simp))]
    obtain ⟨h2, loc2, e2, H2, f1, f2⟩ := loop (Mask.ones [n.mask]) h loc
      ((ones_pairwise [n.mask]).imp (fun h => Nat.ne_of_lt h)) (fun i hi => hi) H ha (fun _ _ _ _ => rfl)
    have hp2 : loc2 p = some a := by
      rw [f2 p ?_]
      · exact ha
      · intro i _ h; have := h.length_le; simp at this; omega
    obtain ⟨h3, e3, H3⟩ := H2.drop hp2
    rw [hkind] at e3
    refine ⟨h3, _, ?_, H3, ?_, ?_⟩
    · rw [dropNodeWithChilds]
      simp only [e1, bind_ok]
      rw [e2]
      exact e3
    · intro q hq
      by_cases e : q = p
      · subst e; simp
      · rw [upd_ne _ _ e]
        rcases prefix_cases hq with e' | ⟨i, hi⟩
        · exact absurd e' e
        · by_cases hmem : i ∈ Mask.ones [n.mask]
          · exact f1 i hmem q hi
          · rw [f2 q ?_]
            · cases hl : loc q with
              | none => rfl
              | some b =>
                exfalso
                obtain ⟨c, hc⟩ := hcl q b (p.length + 1) hq hl (by omega)
                have htk := prefix_take hi
                simp only [List.length_append, List.length_singleton] at htk
                rw [htk] at hc
                have h64 := (ValidPath.of_append (hv _ _ (List.prefix_append p [i]) hc).1).2
                apply hmem
                rw [mem_ones, bit_single, if_pos h64, hrep.bits i h64,
                  hcoh p a (List.prefix_refl p) ha i h64, cellsOf_branch hbr, hc]
                rfl
            · intro j hj h
              exact hmem (prefix_antisymm_len hi h ▸ hj)
    · intro q hq
      rw [upd_ne _ _ (by intro e; rw [e] at hq; exact hq (List.prefix_refl p))]
      rw [f2 q]
      intro i _ h
      exact hq ((List.prefix_append p [i]).trans h)

theorem DS.dropNodes (S : DS ex D t M loc K) (h1 : 1 ≤ D) :
    ∃ h', dropNodeWithChilds D t.heap t.root = .ok h' ∧ ∀ a, h'.node a = none := by
  obtain ⟨a, ha, hr⟩ := S.tree.root
  obtain ⟨h', loc', e1, H1, f1, -⟩ := dropTree_spec (K := K) (D - 1) [] t.heap loc a
    (by simp; omega) ha S.tree.rep (fun _ _ _ _ _ _ => rfl) (fun q b _ hb => S.tree.valid q b hb)
    (fun q b k _ hb _ => S.tree.take_live _ rfl hb k)
  rw [show D - 1 + 1 = D by omega] at e1
  refine ⟨h', by rw [hr]; exact e1, ?_⟩
  intro b
  cases e : h'.node b with
  | none => rfl
  | some n =>
    obtain ⟨p, hp⟩ := H1.cover b n e
    rw [f1 p (List.nil_prefix)] at hp; cases hp

theorem dropSlice_map {l : List (Option α)} {vs : List α} (h : l = vs.map some) :
    dropSlice l = .ok vs := by
  subst h
  induction vs with
  | nil => rfl
  | cons v vs ih =>
    simp only [List.map_cons, dropSlice, unwrapU, bind_ok, ih, pure_eq_ok]

/-- The key and value vectors enumerate the map. -/
theorem DS.enumerate (S : DS ex D t M loc K) :
    ∃ vs : List α, t.data = none :: vs.map some ∧ t.keys.length = vs.length + 1 ∧
      (t.keys.drop 1).Nodup ∧
      ∀ k v, (∃ j : Nat, (t.keys.drop 1)[j]? = some k ∧ vs[j]? = some v) ↔
        k < 64 ^ D ∧ M k = some v := by
  have hlen := S.data.len
  obtain ⟨hn, -⟩ := List.getElem?_eq_some_iff.1 S.data.data0
  obtain ⟨vs, hvs⟩ := all_some (l := t.data.drop 1) (by
    intro d hd
    simp only [List.length_drop] at hd
    obtain ⟨v, hv⟩ := S.data.init (1 + d) (by omega) (by omega)
    exact ⟨v, by rw [List.getElem?_drop]; exact hv⟩)
  have hdata : t.data = none :: vs.map some := by
    rw [← hvs]
    have := S.data.data0
    match h : t.data with
    | [] => rw [h] at hn; simp at hn
    | x :: l => rw [h] at this; simp at this; simp [this]
  have hl2 : t.data.length = vs.length + 1 := by rw [hdata]; simp
  refine ⟨vs, hdata, by omega, ?_, ?_⟩
  · rw [List.Nodup, List.pairwise_iff_getElem]
    intro i j hi hj hij
    simp only [List.length_drop] at hi hj
    rw [List.getElem_drop, List.getElem_drop]
    intro e
    obtain ⟨P, hP⟩ := S.data.surj (1 + i) (by omega) (by omega)
    obtain ⟨Q, hQ⟩ := S.data.surj (1 + j) (by omega) (by omega)
    have a := (S.data.keyOf _ _ hP).2
    have b := (S.data.keyOf _ _ hQ).2
    rw [List.getElem?_eq_getElem (by omega)] at a b
    rw [e] at a
    rw [a] at b
    simp only [Option.some.injEq] at b
    obtain ⟨p1, p2⟩ := S.tree.kvalid _ _ hP
    obtain ⟨q1, q2⟩ := S.tree.kvalid _ _ hQ
    have a' := path_unpath p1
    have b' := path_unpath q1
    rw [p2] at a'; rw [q2] at b'
    have : P = Q := by rw [← a', ← b', b]
    rw [this, hQ] at hP
    simp at hP; omega
  · intro k v
    constructor
    · rintro ⟨j, hj, hv⟩
      rw [List.getElem?_drop] at hj
      obtain ⟨hjl, -⟩ := List.getElem?_eq_some_iff.1 hj
      obtain ⟨P, hP⟩ := S.data.surj (1 + j) (by omega) (by omega)
      have a := (S.data.keyOf _ _ hP).2
      rw [hj] at a
      simp only [Option.some.injEq] at a
      obtain ⟨p1, p2⟩ := S.tree.kvalid _ _ hP
      have hlt : unpath 64 P < 64 ^ D := by rw [← p2]; exact unpath_lt p1
      rw [a]
      refine ⟨hlt, ?_⟩
      rw [S.den_path p1 p2, hP]
      have : t.data[1 + j]? = some (some v) := by
        rw [hdata, Nat.add_comm, List.getElem?_cons_succ, List.getElem?_map, hv]; rfl
      simp [this]
    · rintro ⟨hk, hM⟩
      have hp := validPath_path hk
      have hd := S.den k
      rw [if_pos hk, hM] at hd
      cases hK : K (path 64 D k) with
      | none => rw [hK] at hd; cases hd
      | some d =>
        rw [hK] at hd
        obtain ⟨g1, g2⟩ := S.data.keyOf _ _ hK
        rw [unpath_path 64 D k hk] at g2
        refine ⟨d - 1, ?_, ?_⟩
        · rw [List.getElem?_drop, show 1 + (d - 1) = d by omega]; exact g2
        · simp only [Option.bind_some] at hd
          rw [hdata, show d = (d - 1) + 1 by omega, List.getElem?_cons_succ,
            List.getElem?_map] at hd
          cases e : vs[d - 1]? with
          | none => rw [e] at hd; cases hd
          | some w => rw [e] at hd; simpa using hd.symm

/-- `data.len() - 1` is the number of stored elements. -/
theorem DRep.card_eq (R : DRep ex D t M) : t.data.length = card (64 ^ D) M + 1 := by
  obtain ⟨loc, K, S⟩ := R
  obtain ⟨vs, h1, h2, h3, h4⟩ := S.enumerate
  obtain ⟨p1, -⟩ := values_perm (by simp [h2]) h3 h4
  have := p1.length_eq
  unfold card
  rw [← this]
  simp [h1, h2]

/-- dense_tree.rs:289-297. -/
theorem keyValues_spec (R : DRep ex D t M) :
    ∃ (ks : List Nat) (vs : List α), keyValues t = .ok (ks, vs.map some) ∧ ks.length = vs.length ∧ ks.Nodup ∧
      ∀ k v, (∃ j : Nat, ks[j]? = some k ∧ vs[j]? = some v) ↔ k < 64 ^ D ∧ M k = some v := by
  obtain ⟨loc, K, S⟩ := R
  obtain ⟨vs, h1, h2, h3, h4⟩ := S.enumerate
  refine ⟨t.keys.drop 1, vs, ?_, by simp [h2], h3, h4⟩
  unfold keyValues
  rw [if_pos ⟨by omega, by rw [h1]; simp⟩, h1]
  rfl

/-- dense_tree.rs:312-323. -/
theorem dropImpl_spec (R : DRep ex D t M) (h1 : 1 ≤ D) :
    ∃ vs h', dropImpl D t = .ok (vs, h') ∧ List.Perm vs (valuesOf (64 ^ D) M) ∧
      ∀ a, h'.node a = none := by
  obtain ⟨loc, K, S⟩ := R
  obtain ⟨vs, g1, g2, g3, g4⟩ := S.enumerate
  obtain ⟨-, p2⟩ := values_perm (by simp [g2]) g3 g4
  obtain ⟨h', e1, e2⟩ := S.dropNodes h1
  refine ⟨vs, h', ?_, p2, e2⟩
  unfold dropImpl
  rw [if_pos (by rw [g1]; simp), g1]
  simp only [List.drop_succ_cons, List.drop_zero, dropSlice_map rfl, bind_ok, e1, pure_eq_ok]

end Hibit.Dense
