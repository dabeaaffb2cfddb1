import Verif.Cluster.Lemmas
import Verif.Props.Blocks
/-!
# C66: a clustered block behaves like a full-size block

The specification is the table of C59 (`Table`, `legal`, `after`, `returns`). `ClusterBlock` meets it only
while every group of 16 positions is filled in ascending order and at most four groups are used; the
`_fails` theorems show that each of these conditions is necessary, from every state reached within them.
-/
namespace Hibit.Props
open Hibit Hibit.Small Hibit.Cluster

/-- Do two positions lie in the same group of 16? -/
abbrev together (i j : Nat) : Prop := i / 16 = j / 16

/-- The number of groups of 16 positions that hold an item. -/
def groups16 (N : Nat) (f : Table) : Nat :=
  ((List.range (4 * N)).filter fun k =>
    (List.range (width N)).any fun j => decide (together j (16 * k)) && (f j).isSome).length

/-- What a caller sees of a call; `is_empty` is `todo!()` for this block and left out. -/
def showsC (f : Table) (op : Op) : Nat × Bool × (Nat → Bool) :=
  ((returns f op).1, (returns f op).2, fun i => (after f op i).isSome)

def specShowsC : Table → List Op → List (Nat × Bool × (Nat → Bool))
  | _, [] => []
  | f, op :: ops => showsC f op :: specShowsC (after f op) ops

def seenC (o : Nat × Bool × Mask) : Nat × Bool × (Nat → Bool) := (o.1, o.2.1, o.2.2.bit)

/-- The calls that work: reads anywhere, insertions of non-zero items above everything in their group, if
at most four groups are in use afterwards. -/
def ascends (N : Nat) (f : Table) : Op → Prop
  | .get i => i < width N
  | .getOrInsert i v => i < width N ∧ v ≠ 0 ∧ (∀ j, i ≤ j → together j i → f j = none) ∧
      groups16 N (after f (.getOrInsert i v)) ≤ 4
  | .remove _ => False
  | .set _ _ => False

/-- A sequence of such calls. -/
def Ascending (N : Nat) : Table → List Op → Prop
  | _, [] => True
  | f, op :: ops => ascends N f op ∧ Ascending N (after f op) ops

/-- The table after a sequence of calls. -/
def tableAfter (f : Table) (ops : List Op) : Table := ops.foldl after f

theorem groups16_eq (N : Nat) (f : Table) : groups16 N f = busyCount N f := by
  unfold groups16 busyCount
  rw [← List.countP_eq_length_filter]
  apply List.countP_congr
  intro k hk
  simp only [List.mem_range] at hk
  rw [busy_eq]
  simp only [List.any_eq_true, List.mem_range, Bool.and_eq_true, decide_eq_true_eq, together, width]
  constructor
  · rintro ⟨j, h1, h2, h3⟩
    exact ⟨j % 16, Nat.mod_lt _ (by decide), by rw [show 16 * k + j % 16 = j by omega]; exact h3⟩
  · rintro ⟨j, h1, h2⟩
    exact ⟨16 * k + j, by omega, by omega, h2⟩

theorem width_eq (N : Nat) : width N = 64 * N := rfl

theorem cluster_step {N : Nat} {b : CB} {f : Table} (h : Cluster.Rep N b f) {op : Op} (hl : ascends N f op) :
    ∃ o b', b.step op = .ok (o, b') ∧ seenC o = showsC f op ∧ Cluster.Rep N b' (after f op) := by
  cases op with
  | get i =>
    refine ⟨_, _, by simp only [CB.step, h.getOrZero hl, bind_ok]; rfl, ?_, h⟩
    simp only [seenC, showsC, returns, after]
    rw [funext h.bits]
  | getOrInsert i v =>
    obtain ⟨h1, h2, h3, h4⟩ := hl
    have hn : f i = none := h3 i (Nat.le_refl _) rfl
    rw [groups16_eq, after_upd_some f v hn] at h4
    obtain ⟨b', e, hr⟩ := h.insert v h1 h3 h4
    refine ⟨_, _, by simp only [CB.step, e, bind_ok]; rfl, ?_, by rw [after_upd_some f v hn]; exact hr⟩
    simp only [seenC, showsC, returns, hn, Option.getD_none, Option.isNone_none]
    rw [after_upd_some f v hn, funext hr.bits]
  | remove i => exact absurd hl id
  | set i v => exact absurd hl id

theorem cluster_run {N : Nat} : ∀ (ops : List Op) {b : CB} {f : Table}, Cluster.Rep N b f →
    Ascending N f ops → ∃ os b', CB.run b ops = .ok (os, b') ∧ os.map seenC = specShowsC f ops ∧
      Cluster.Rep N b' (tableAfter f ops)
  | [], b, _, h, _ => ⟨[], b, rfl, rfl, h⟩
  | op :: ops, b, f, h, ⟨h1, h3⟩ => by
    obtain ⟨o, b1, e1, es, hr⟩ := cluster_step h h1
    obtain ⟨os, b2, e2, es2, hr2⟩ := cluster_run ops hr h3
    refine ⟨o :: os, b2, ?_, by simp [specShowsC, es, es2], hr2⟩
    simp only [CB.run, e1, bind_ok, e2]; rfl

theorem CB.run_append : ∀ (xs ys : List Op) (b : CB), CB.run b (xs ++ ys) = (do
    let (os, b) ← CB.run b xs
    let (os', b) ← CB.run b ys
    return (os ++ os', b))
  | [], ys, b => by
    simp only [List.nil_append, CB.run, bind_ok]
    cases CB.run b ys <;> rfl
  | x :: xs, ys, b => by
    simp only [List.cons_append, CB.run]
    cases b.step x with
    | error e => rfl
    | ok p =>
      simp only [bind_ok, CB.run_append xs ys]
      cases CB.run p.2 xs with
      | error e => rfl
      | ok q =>
        simp only [bind_ok, pure_eq_ok]
        cases CB.run q.2 ys with
        | error e => rfl
        | ok r => rfl

/-- **C66 (partial).** On every sequence of reads and ascending insertions, from an empty block, a
`ClusterBlock` never misbehaves and shows exactly what the table says. Missing: every other legal
sequence, for which the property is false (the `C66_fails` theorems). -/
theorem C66_cluster_block_partial (N : Nat) (ops : List Op) (hl : Ascending N noItems ops) :
    ∃ os b, CB.run (CB.empty N) ops = .ok (os, b) ∧ os.map seenC = specShowsC noItems ops := by
  obtain ⟨os, b, e, es, _⟩ := cluster_run ops (Cluster.Rep.empty N) hl
  exact ⟨os, b, e, es⟩

theorem Nz.ascending {N : Nat} : ∀ {ops : List Op} {f : Table}, Nz f → Ascending N f ops →
    Nz (tableAfter f ops)
  | [], _, h, _ => h
  | op :: ops, f, h, ⟨h1, h2⟩ => by
    refine Nz.ascending (ops := ops) (h.after (N := N) ?_) h2
    cases op with
    | get i => exact h1
    | getOrInsert i v => exact ⟨h1.1, h1.2.1⟩
    | remove i => exact absurd h1 id
    | set i v => exact absurd h1 id

/-- **C66 fails (1):** `get_or_insert` at an occupied position always reports an insertion of the new
item, and the old item is lost — the specification returns the old item and `false`. -/
theorem C66_fails_existing (N : Nat) (ops : List Op) (hl : Ascending N noItems ops) {i w : Nat}
    (hw : tableAfter noItems ops i = some w) (v : Nat) :
    returns (tableAfter noItems ops) (.getOrInsert i v) = (w, false) ∧
    ∃ os b0 b, CB.run (CB.empty N) ops = .ok (os, b0) ∧
      CB.run (CB.empty N) (ops ++ [.getOrInsert i v, .get i]) =
        .ok (os ++ [(v, true, b.mask), (v, false, b.mask)], b) := by
  refine ⟨by simp [returns, hw], ?_⟩
  obtain ⟨os, b, e, es, hr⟩ := cluster_run ops (Cluster.Rep.empty N) hl
  have hr' : Cluster.Rep N b (tableAfter noItems ops) := hr
  have hi : i < 64 * N := f_lt hr'.mlen hr'.bits hw
  have hj : i % 16 < 16 := Nat.mod_lt _ (by decide)
  obtain ⟨b', p, e1, hml, hmb, hsl, hp, ht, hf, hsub, hst, hother⟩ :=
    hr'.getOrInsert_raw (v := v) hi (.inl (busy_of hw))
  have hbits : ∀ j, b'.mask.bit j = (tableAfter noItems ops j).isSome := by
    intro j
    rw [hmb]
    by_cases hji : j = i
    · subst hji; rw [hw]; simp
    · simp [hji]
  have eg := getOrZero_raw hml hbits hi (by rw [hw]; rfl) hp hst
  have hrank : cnt (piece (tableAfter noItems ops) (i / 16)) (i % 16) < 16 := by
    have := cnt_piece_le (piece (tableAfter noItems ops) (i / 16)) (i % 16); omega
  have hle := cnt_piece_le (piece (tableAfter noItems ops) (i / 16)) 16
  have hlen : ((List.range 16).filterMap (piece (tableAfter noItems ops) (i / 16))).length =
    cnt (piece (tableAfter noItems ops) (i / 16)) 16 := rfl
  rw [getU_some (a := v) (by
    rw [List.getElem?_set_self]
    rw [List.length_append, List.length_replicate, hlen]; omega)] at eg
  refine ⟨os, b, b', e, ?_⟩
  rw [CB.run_append, e]
  simp only [bind_ok, CB.run, CB.step, e1, eg, pure_eq_ok]

/-- **C66 fails (2):** an insertion below an occupied position of its group destroys items: afterwards the
highest item of the group reads as zero, although its mask bit is set and the table holds `w ≠ 0`. -/
theorem C66_fails_below (N : Nat) (ops : List Op) (hl : Ascending N noItems ops) {i j w : Nat} (v : Nat)
    (hv : v ≠ 0) (hi : tableAfter noItems ops i = none) (hij : i < j) (ht : together i j)
    (hw : tableAfter noItems ops j = some w)
    (htop : ∀ k, j < k → together k j → tableAfter noItems ops k = none) :
    legal N (tableAfter noItems ops) (.getOrInsert i v) ∧
    returns (after (tableAfter noItems ops) (.getOrInsert i v)) (.get j) = (w, false) ∧ w ≠ 0 ∧
    ∃ os b0 b, CB.run (CB.empty N) ops = .ok (os, b0) ∧
      CB.run (CB.empty N) (ops ++ [.getOrInsert i v, .get j]) =
        .ok (os ++ [(v, true, b.mask), (0, false, b.mask)], b) ∧ b.mask.bit j = true := by
  obtain ⟨os, b, e, es, hr⟩ := cluster_run ops (Cluster.Rep.empty N) hl
  have hr' : Cluster.Rep N b (tableAfter noItems ops) := hr
  have hz := noItems_nz.ascending hl
  generalize tableAfter noItems ops = f at hi hw htop hr' hz ⊢
  unfold together at ht htop
  have hjN : j < 64 * N := f_lt hr'.mlen hr'.bits hw
  have hiN : i < 64 * N := by omega
  have hjm : j % 16 < 16 := Nat.mod_lt _ (by decide)
  have him : i % 16 < 16 := Nat.mod_lt _ (by decide)
  have hlt : i % 16 < j % 16 := by omega
  refine ⟨⟨hiN, hv⟩, by simp [returns, after, hi, hw, show j ≠ i by omega], hz j w hw, ?_⟩
  obtain ⟨b', p, e1, hml, hmb, hsl, hp, ht', hf, hsub, hst, hother⟩ :=
    hr'.getOrInsert_raw (v := v) hiN (.inl (by rw [ht]; exact busy_of hw))
  have hbits : ∀ k, b'.mask.bit k = (Dense.upd f i (some v) k).isSome := by
    intro k
    rw [hmb]
    by_cases hki : k = i
    · subst hki; simp
    · rw [Dense.upd_ne _ _ hki]; simp [hki]
  have hpj : piece f (i / 16) (j % 16) = some w := by
    unfold piece; rw [show 16 * (i / 16) + j % 16 = j by omega, hw]
  have hpi : piece f (i / 16) (i % 16) = none := by
    unfold piece; rw [show 16 * (i / 16) + i % 16 = i by omega, hi]
  have habove : aboveN (piece f (i / 16)) 16 (j % 16) = [] := by
    unfold aboveN
    rw [List.filterMap_eq_nil_iff]
    intro a ha
    simp only [List.mem_map, List.mem_range] at ha
    obtain ⟨x, hx, rfl⟩ := ha
    exact htop _ (by omega) (by omega)
  have hc1 : cnt (piece f (i / 16)) 16 = cnt (piece f (i / 16)) (j % 16) + 1 := by
    rw [cnt_split _ hjm, hpj, habove]; rfl
  have hc2 : cnt (piece (Dense.upd f i (some v)) (j / 16)) (j % 16) = cnt (piece f (i / 16)) 16 := by
    rw [← ht, piece_upd_same, cnt_insert v hpi hlt, hc1]
  have hc3 : cnt (piece f (i / 16)) (i % 16) ≤ cnt (piece f (i / 16)) (j % 16) := cnt_mono _ (by omega)
  have hc4 : cnt (piece f (i / 16)) (j % 16) < 15 ∨ j % 16 = 15 := by
    have := cnt_piece_le (piece f (i / 16)) (j % 16); omega
  have hc5 : cnt (piece f (i / 16)) 16 < 16 := by
    have h1 := cnt_insert v hpi him
    have h2 := cnt_piece_le (Dense.upd (piece f (i / 16)) (i % 16) (some v)) 16
    omega
  have eg := getOrZero_raw (i := j) hml hbits hjN (by rw [Dense.upd_ne _ _ (by omega), hw]; rfl)
    (by rw [← ht]; exact hp) hst
  have hlen : ((List.range 16).filterMap (piece f (i / 16))).length = cnt (piece f (i / 16)) 16 := rfl
  rw [hc2, getU_some (a := 0) (by
    rw [List.getElem?_set_ne (by omega), List.getElem?_append_right (by omega), hlen, Nat.sub_self,
      List.getElem?_replicate, if_pos (by omega)])] at eg
  refine ⟨os, b, b', e, ?_, ?_⟩
  · rw [CB.run_append, e]
    simp only [bind_ok, CB.run, CB.step, e1, eg, pure_eq_ok]
  · rw [hbits, Dense.upd_ne _ _ (by omega), hw]; rfl

/-- **C66 fails (3):** the first item of a fifth group is refused with a panic. -/
theorem C66_fails_fifth (N : Nat) (ops : List Op) (hl : Ascending N noItems ops) {i v : Nat} (hi : i < width N)
    (hfull : groups16 N (tableAfter noItems ops) = 4)
    (hnew : ∀ j, together j i → tableAfter noItems ops j = none) :
    CB.run (CB.empty N) (ops ++ [.getOrInsert i v]) = .error .panic := by
  obtain ⟨os, b, e, es, hr⟩ := cluster_run ops (Cluster.Rep.empty N) hl
  have hr' : Cluster.Rep N b (tableAfter noItems ops) := hr
  generalize tableAfter noItems ops = f at hfull hnew hr'
  unfold together at hnew
  rw [width_eq] at hi
  obtain ⟨s, es, hs⟩ := hr'.sub (k := i / 16) (by omega)
  have hz : (s == 0) = true := by
    rw [sub_zero]
    intro j hj
    rw [hs j hj]
    unfold piece
    rw [hnew _ (by omega)]; rfl
  have hlen : ¬ b.storage.length < 4 := by
    rw [hr'.count, ← groups16_eq]; omega
  rw [CB.run_append, e]
  simp only [bind_ok, CB.run, CB.step, CB.getOrInsert, es, CB.locate, hz, if_true, hlen, if_false]
  rfl

/-- **C66 fails (4):** `remove_unchecked` and `set_unchecked` panic, in every state. -/
theorem C66_fails_todo (N : Nat) (ops : List Op) (hl : Ascending N noItems ops) (i v : Nat) :
    CB.run (CB.empty N) (ops ++ [.remove i]) = .error .panic ∧
    CB.run (CB.empty N) (ops ++ [.set i v]) = .error .panic := by
  obtain ⟨os, b, e, es, hr⟩ := cluster_run ops (Cluster.Rep.empty N) hl
  constructor <;> rw [CB.run_append, e] <;> rfl

theorem after_other {f : Table} {i j : Nat} (v : Nat) (h : j ≠ i) (hf : f j = none) :
    after f (.getOrInsert i v) j = none := by simp [after, h, hf]

theorem after_get {f : Table} {i j : Nat} (hf : f j = none) : after f (.get i) j = none := hf

/-- Two mask words; four groups (0, 2, 4, 7), each filled in ascending order, groups interleaved. -/
def exCluster : List Op :=
  [.getOrInsert 3 10, .getOrInsert 70 11, .getOrInsert 5 12, .get 3, .getOrInsert 127 13, .getOrInsert 40 14,
   .getOrInsert 15 15, .get 70, .getOrInsert 41 16, .get 41, .get 4]

/-- The hypothesis of `C66_cluster_block_partial` holds for it. -/
theorem exCluster_ascending : Ascending 2 noItems exCluster := by
  unfold exCluster
  repeat' (first | apply And.intro | trivial)
  all_goals first
    | (show (_ : Nat) < _; decide)
    | decide +kernel
    | (intro j h1 h2
       unfold together at h2
       repeat (first | exact rfl | apply after_other _ (by omega) | apply after_get))

/-- Its run. -/
example : (match CB.run (CB.empty 2) exCluster with
      | .ok (os, _) => os.map fun o => (o.1, o.2.1)
      | .error _ => []) = [(10, true), (11, true), (12, true), (10, false), (13, true), (14, true), (15, true),
    (11, false), (16, true), (16, false), (0, false)] := by decide +kernel

/-- The hypotheses of the failing theorems hold after it. -/
example : tableAfter noItems exCluster 5 = some 12 ∧
    tableAfter noItems exCluster 4 = none ∧ tableAfter noItems exCluster 15 = some 15 ∧ together 4 15 ∧
    (∀ k, 15 < k → together k 15 → tableAfter noItems exCluster k = none) ∧
    groups16 2 (tableAfter noItems exCluster) = 4 ∧
    (∀ j, together j 20 → tableAfter noItems exCluster j = none) := by
  refine ⟨by decide +kernel, by decide +kernel, by decide +kernel, by decide, ?_, by decide +kernel, ?_⟩
  · intro k h1 h2; unfold together at h2; omega
  · intro j h
    unfold together at h
    simp only [tableAfter, exCluster, List.foldl]
    repeat (first | exact rfl | apply after_other _ (by omega) | apply after_get)

end Hibit.Props
