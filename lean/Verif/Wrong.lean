import Verif.IterLemmas
import Verif.Ops.LawfulMU
/-!
# Trees with wrong answers

`HibitTree` and `HibitTreeCursor` (src/hibit_tree.rs:141-321) are safe traits, so that a safe but
wrong implementation may be handed to the crate. Here: a contract much weaker than `Lawful`, which
says nothing about the answers being consistent, and which is kept by most combinators.
-/
namespace Hibit

/-- No undefined behaviour, with `tm` no unbounded run either, and a returned value satisfies `P`. -/
def Nub (tm : Bool) {α : Type} (x : R α) (P : α → Prop) : Prop :=
  (x ≠ .error .ub ∧ (tm = true → x ≠ .error .fuel)) ∧ ∀ a, x = .ok a → P a

theorem Nub.ok {α : Type} {P : α → Prop} {a : α} (h : P a) : Nub tm (.ok a) P :=
  ⟨⟨(fun e => by cases e), (fun _ e => by cases e)⟩, (fun _ e => by cases e; exact h)⟩

theorem Nub.pure {α : Type} {P : α → Prop} {a : α} (h : P a) : Nub tm (Pure.pure a : R α) P := Nub.ok h

theorem Nub.panic {α : Type} {P : α → Prop} : Nub tm (.error .panic : R α) P :=
  ⟨⟨(fun e => by cases e), (fun _ e => by cases e)⟩, (fun _ e => by cases e)⟩

theorem Nub.fuel {α : Type} {P : α → Prop} (h : tm ≠ true) : Nub tm (.error .fuel : R α) P :=
  ⟨⟨(fun e => by cases e), (fun e => absurd e h)⟩, (fun _ e => by cases e)⟩

theorem Nub.bind {α β : Type} {P : α → Prop} {Q : β → Prop} {x : R α} {f : α → R β}
    (hx : Nub tm x P) (hf : ∀ a, P a → Nub tm (f a) Q) : Nub tm (x >>= f) Q := by
  cases x with
  | error e =>
    refine ⟨⟨fun h => hx.1.1 ?_, fun t h => hx.1.2 t ?_⟩, fun a h => by cases h⟩
    · cases h; rfl
    · cases h; rfl
  | ok a => exact hf a (hx.2 a rfl)

theorem Nub.imp {α : Type} {P Q : α → Prop} {x : R α} (hx : Nub tm x P) (h : ∀ a, P a → Q a) :
    Nub tm x Q := ⟨hx.1, fun a e => h a (hx.2 a e)⟩

theorem Nub.getU {α : Type} {l : List α} {i : Nat} {P : α → Prop} (h : i < l.length)
    (hP : ∀ a, l[i]? = some a → P a) : Nub tm (Hibit.getU l i) P := by
  rw [getU_ok h]
  exact Nub.ok (hP _ (List.getElem?_eq_getElem h))

theorem Nub.setU {α : Type} {l : List α} {i : Nat} {a : α} {P : List α → Prop} (h : i < l.length)
    (hP : P (l.set i a)) : Nub tm (Hibit.setU l i a) P := by
  rw [setU_ok a h]
  exact Nub.ok hP

theorem Nub.getP {α : Type} {l : List α} {i : Nat} {P : α → Prop}
    (hP : ∀ a, l[i]? = some a → P a) : Nub tm (Hibit.getP l i) P := by
  unfold Hibit.getP
  split
  · exact Nub.ok (hP _ (by assumption))
  · exact Nub.panic

theorem Nub.unwrapU {α : Type} {o : Option α} {P : α → Prop} (h : ∃ a, o = some a ∧ P a) :
    Nub tm (Hibit.unwrapU o) P := by
  obtain ⟨a, rfl, hP⟩ := h
  exact Nub.ok hP

/-- What the crate's unsafe code needs of a source tree, whatever its answers: the methods have no
undefined behaviour when called at nodes the tree itself announced. `ok c ms b`: the cursor `c` has
selected nodes at the levels `0 .. ms.length - 1` with the masks `ms`, the last one by the checked
method if `b`. With `u`, also the cursor's unchecked data access at announced bits; with `h`, the
cursor's checked data access has data at announced bits. -/
structure SturdyBy (tm u h : Bool) {S Cur δ : Type} (I : Impl S Cur δ) (s : S)
    (ok : Cur → List Mask → Bool → Prop) : Prop where
  cfg : ValidCfg I.N I.D
  len : ∀ c ms b, ok c ms b → ms.length ≤ I.D
  data : ∀ p, ValidPath (width I.N) p → p.length = I.D →
    Nub tm (I.data s (unpath (width I.N) p) p) (fun _ => True)
  create : Nub tm (I.new s) (fun c => ok c [] true)
  select : ∀ c ms b n i, ok c ms b → n ≤ ms.length → n < I.D → i < width I.N → (n = 0 → i = 0) →
    Nub tm (I.select c s n i) (fun r => r.1.length = I.N ∧ ok r.2 (ms.take n ++ [r.1]) true)
  selectU : ∀ c ms b n i, ok c ms b → n ≤ ms.length → n < I.D → i < width I.N → (n = 0 → i = 0) →
    (∀ (m : Mask), 0 < n → ms[n - 1]? = some m → m.bit i = true) →
    Nub tm (I.selectU c s n i) (fun r => r.1.length = I.N ∧ ok r.2 (ms.take n ++ [r.1]) false)
  curData : ∀ c ms i, ok c ms true → ms.length = I.D → i < width I.N →
    Nub tm (I.curData c s i) (fun d => h = true → ∀ (m : Mask), ms[I.D - 1]? = some m →
      m.bit i = true → d.isSome = true)
  curDataU : u = true → ∀ c ms b i, ok c ms b → ms.length = I.D → i < width I.N →
    (∀ (m : Mask), ms[I.D - 1]? = some m → m.bit i = true) → Nub tm (I.curDataU c s i) (fun _ => True)

/-- `SturdyBy` for some description of the cursors. -/
def Sturdy (tm u h : Bool) {S Cur δ : Type} (I : Impl S Cur δ) (s : S) : Prop :=
  ∃ ok, SturdyBy tm u h I s ok

/-- The weakest description. -/
def okAll (tm u h : Bool) {S Cur δ : Type} (I : Impl S Cur δ) (s : S) (c : Cur) (ms : List Mask)
    (b : Bool) : Prop := ∃ ok, SturdyBy tm u h I s ok ∧ ok c ms b

theorem Sturdy.all {u h : Bool} {S Cur δ : Type} {I : Impl S Cur δ} {s : S} (hs : Sturdy tm u h I s) :
    SturdyBy tm u h I s (okAll tm u h I s) where
  cfg := hs.choose_spec.cfg
  len := fun c ms b ⟨_, hk, hc⟩ => hk.len c ms b hc
  data := hs.choose_spec.data
  create := hs.choose_spec.create.imp fun _ hc => ⟨_, hs.choose_spec, hc⟩
  select := fun c ms b n i ⟨ok, hk, hc⟩ h1 h2 h3 h4 =>
    (hk.select c ms b n i hc h1 h2 h3 h4).imp fun _ hr => ⟨hr.1, ok, hk, hr.2⟩
  selectU := fun c ms b n i ⟨ok, hk, hc⟩ h1 h2 h3 h4 h5 =>
    (hk.selectU c ms b n i hc h1 h2 h3 h4 h5).imp fun _ hr => ⟨hr.1, ok, hk, hr.2⟩
  curData := fun c ms i ⟨_, hk, hc⟩ h1 h2 => hk.curData c ms i hc h1 h2
  curDataU := fun e c ms b i ⟨_, hk, hc⟩ h1 h2 h3 => hk.curDataU e c ms b i hc h1 h2 h3

theorem Sturdy.mono {u h u' h' : Bool} {S Cur δ : Type} {I : Impl S Cur δ} {s : S}
    (hs : Sturdy tm u h I s) (hu : u' = true → u = true) (hh : h' = true → h = true) :
    Sturdy tm u' h' I s := by
  obtain ⟨ok, hk⟩ := hs
  exact ⟨ok, hk.cfg, hk.len, hk.data, hk.create, hk.select, hk.selectU,
    fun c ms i h1 h2 h3 => (hk.curData c ms i h1 h2 h3).imp fun d hd e => hd (hh e),
    fun e => hk.curDataU (hu e)⟩

/-! ### Iteration -/

section
variable {S Cur δ : Type} {I : Impl S Cur δ} {s : S} {u h : Bool}
  {ok : Cur → List Mask → Bool → Prop}

/-- Invariant of an iterator over a tree with possibly wrong answers: a level iterator only yields
bits of the mask last selected at its level. -/
structure WIt (I : Impl S Cur δ) (ok : Cur → List Mask → Bool → Prop) (st : IterSt Cur)
    (ms : List Mask) (b : Bool) : Prop where
  one : 0 < ms.length
  len : ms.length ≤ I.D
  cur : ok st.cur ms b
  masks : ∀ m ∈ ms, m.length = I.N
  lidx : st.lidx.length = I.D - 1
  iters : st.iters.length = I.D
  wf : ∀ (j : Nat) (it : BitsIter), st.iters[j]? = some it → it.Wf I.N
  above : ∀ (j : Nat), ms.length ≤ j → remAt st.iters j = []
  bits : ∀ (j : Nat) (m : Mask), ms[j]? = some m → ∀ x ∈ remAt st.iters j, m.bit x = true
  pval : ValidPath (width I.N) (st.lidx.take (ms.length - 1))

/-- The indices the iterator may still yield, whatever the tree answers. -/
def chances (I : Impl S Cur δ) (st : IterSt Cur) : List (Nat × Unit) :=
  remBelow (width I.N) I.D (fun _ => some ()) st.iters st.lidx I.D

/-- An upper bound for the remaining rounds of the search loop. -/
def rounds (I : Impl S Cur δ) (st : IterSt Cur) : Nat := mu (width I.N) I.D st.iters I.D

theorem flatMap_sublist {α β : Type} {l l' : List α} {f : α → List β} (h : l.Sublist l') :
    (l.flatMap f).Sublist (l'.flatMap f) := by
  induction h with
  | slnil => exact List.Sublist.refl _
  | cons a _ ih =>
    rw [List.flatMap_cons]
    exact ih.trans (List.sublist_append_right _ _)
  | cons_cons a _ ih =>
    rw [List.flatMap_cons, List.flatMap_cons]
    exact (List.Sublist.refl _).append ih

theorem chances_nil {st : IterSt Cur} (h : ∀ j, remAt st.iters j = []) : chances I st = [] := by
  unfold chances
  generalize I.D = k
  generalize hk : k = D
  rw [show remBelow (width I.N) D (fun _ => some ()) st.iters st.lidx D =
    remBelow (width I.N) D (fun _ => some ()) st.iters st.lidx k by rw [hk]]
  clear hk
  induction k with
  | zero => rfl
  | succ n ih => rw [remBelow, h n, ih]; rfl

theorem rounds_congr {st st' : IterSt Cur} (h : ∀ j, remAt st'.iters j = remAt st.iters j) :
    rounds I st' = rounds I st := mu_congr _ fun j _ => h j

theorem chances_congr {st st' : IterSt Cur} (h : ∀ j, remAt st'.iters j = remAt st.iters j)
    (hl : st'.lidx = st.lidx) : chances I st' = chances I st := by
  unfold chances
  rw [hl]
  exact remBelow_congr _ fun j _ => ⟨h j, fun _ => rfl⟩

theorem bit_width {N : Nat} {m : Mask} {i : Nat} (hl : m.length = N) (hb : m.bit i = true) :
    i < width N := by
  have := bit_lt hb
  rw [hl] at this
  exact this

theorem tail_sub {l : List Nat} {x : Nat} (hx : x ∈ l.tail) : x ∈ l := List.mem_of_mem_tail hx

/-- Advancing the iterator of one level. -/
theorem WIt.next {st : IterSt Cur} {ms : List Mask} {b : Bool} (hw : WIt I ok st ms b) {n : Nat}
    {it it' : BitsIter} (hit : st.iters[n]? = some it) (hwf : it'.Wf I.N)
    (hr : it'.rem = it.rem.tail) : WIt I ok { st with iters := st.iters.set n it' } ms b := by
  have hlt : n < st.iters.length := (List.getElem?_eq_some_iff.1 hit).1
  have hsub : ∀ j x, x ∈ remAt (st.iters.set n it') j → x ∈ remAt st.iters j := by
    intro j x hx
    by_cases hj : n = j
    · subst hj
      rw [remAt_set_self hlt, hr] at hx
      rw [remAt_of_some hit]
      exact tail_sub hx
    · rwa [remAt_set_ne hj] at hx
  exact
    { one := hw.one, len := hw.len, cur := hw.cur, masks := hw.masks, lidx := hw.lidx
      iters := by simp [hw.iters]
      wf := getElem?_set_wf hw.wf hwf
      above := by
        intro j hj
        cases hc : remAt (st.iters.set n it') j with
        | nil => rfl
        | cons x l =>
          have := hsub j x (by rw [hc]; simp)
          rw [hw.above j hj] at this
          cases this
      bits := fun j m hm x hx => hw.bits j m hm x (hsub j x hx)
      pval := hw.pval }

theorem wit_visit (hk : SturdyBy tm u h I s ok) {n : Nat} (hn : n + 1 < I.D) {st : IterSt Cur}
    {ms : List Mask} {b : Bool} (hw : WIt I ok st ms b)
    (ha : ∀ j, n < j → remAt st.iters j = []) :
    Nub tm (I.iterVisit s st n) (fun r => (∃ ms' b', WIt I ok r.1 ms' b') ∧
      (chances I r.1).Sublist (chances I st) ∧
      (r.2 = false → (∀ j, n ≤ j → remAt r.1.iters j = []) ∧ rounds I r.1 = rounds I st) ∧
      (r.2 = true → rounds I r.1 < rounds I st)) := by
  have hlt : n < st.iters.length := by rw [hw.iters]; omega
  have hget : st.iters[n]? = some st.iters[n] := List.getElem?_eq_getElem hlt
  obtain ⟨it', hnext, hwf', hrem'⟩ := next_spec (hw.wf n _ hget)
  have hw' := hw.next hget hwf' hrem'
  unfold Impl.iterVisit
  simp only [getU_some hget, bind_ok, hnext, setU_ok it' hlt]
  cases hr : st.iters[n].rem with
  | nil =>
    simp only [List.head?_nil]
    have hsame : ∀ j, remAt (st.iters.set n it') j = remAt st.iters j := by
      intro j
      by_cases hj : n = j
      · subst hj; rw [remAt_set_self hlt, hrem', remAt_of_some hget, hr]; rfl
      · exact remAt_set_ne hj _
    refine Nub.pure ⟨⟨ms, b, hw'⟩, ?_, fun _ => ⟨fun j hj => ?_, rounds_congr hsame⟩, fun e => by cases e⟩
    · rw [chances_congr (st := st) (st' := ⟨st.iters.set n it', st.lidx, st.cur⟩) hsame rfl]
      exact List.Sublist.refl _
    show remAt (st.iters.set n it') j = []
    by_cases hj' : n = j
    · subst hj'; rw [remAt_set_self hlt, hrem', hr]; rfl
    · rw [remAt_set_ne hj']; exact ha j (by omega)
  | cons x rest =>
    simp only [List.head?_cons]
    have hrn : remAt st.iters n = x :: rest := by rw [remAt_of_some hget, hr]
    have hx : x ∈ remAt st.iters n := by rw [hrn]; simp
    have hnl : n < ms.length := by
      apply Classical.byContradiction
      intro hc
      rw [hw.above n (by omega)] at hx
      cases hx
    have hgm : ms[n]? = some ms[n] := List.getElem?_eq_getElem hnl
    have hb := hw.bits n _ hgm x hx
    have hxw := bit_width (hw.masks _ (List.getElem_mem hnl)) hb
    have hlidx : n < st.lidx.length := by rw [hw.lidx]; omega
    rw [setU_ok x hlidx]
    simp only [bind_ok]
    refine (hk.selectU st.cur ms b (n + 1) x hw.cur (by omega) hn hxw (by omega) ?_).bind ?_
    · intro m _ hm
      rw [Nat.add_sub_cancel, hgm] at hm
      cases hm
      exact hb
    · rintro ⟨mask, cur⟩ ⟨hml, hok⟩
      simp only at hml hok ⊢
      have hlt' : n + 1 < (st.iters.set n it').length := by rw [List.length_set, hw.iters]; exact hn
      rw [setU_ok _ hlt']
      simp only [bind_ok]
      have hpos : 0 < mask.length := by
        rw [hml]
        rcases hk.cfg.words with e | e | e <;> omega
      have htl : (ms.take (n + 1) ++ [mask]).length = n + 2 := by simp; omega
      have htk : (st.lidx.set n x).take (n + 1) = st.lidx.take n ++ [x] := by
        rw [List.take_add_one, List.take_set_of_le (Nat.le_refl n)]
        simp [hlidx]
      have ha1 : ∀ j, n < j → remAt st.iters j = [] := fun j hj => ha j hj
      have ha2 : ∀ j, n + 1 < j →
          remAt ((st.iters.set n it').set (n + 1) (intoBitsIter mask)) j = [] := by
        intro j hj
        rw [remAt_set_ne (by omega), remAt_set_ne (by omega)]
        exact ha j (by omega)
      rw [hr] at hrem'
      simp only [List.tail_cons] at hrem'
      refine Nub.pure ⟨⟨ms.take (n + 1) ++ [mask], false, ?_⟩, ?_, (fun e => by cases e), fun _ => ?_⟩
      · exact
          { one := by rw [htl]; omega
            len := by rw [htl]; omega
            cur := hok
            masks := by
              intro m hm
              rcases List.mem_append.1 hm with hm | hm
              · exact hw.masks m (List.mem_of_mem_take hm)
              · simp at hm; rw [hm]; exact hml
            lidx := by simp [hw.lidx]
            iters := by simp [hw.iters]
            wf := getElem?_set_wf (getElem?_set_wf hw.wf hwf') (hml ▸ intoBitsIter_wf hpos)
            above := by
              intro j hj
              rw [htl] at hj
              exact ha2 j (by omega)
            bits := by
              intro j m hm y hy
              by_cases hj : j = n + 1
              · subst hj
                rw [remAt_set_self hlt', intoBitsIter_rem hpos] at hy
                rw [List.getElem?_append_right (by simp; omega)] at hm
                have : n + 1 - (ms.take (n + 1)).length = 0 := by simp; omega
                rw [this] at hm
                cases hm
                exact mem_ones.1 hy
              · rw [remAt_set_ne (by omega)] at hy
                have hjl : j < n + 1 := by
                  have := (List.getElem?_eq_some_iff.1 hm).1
                  rw [htl] at this; omega
                rw [List.getElem?_append_left (by simp; omega), List.getElem?_take_of_lt hjl] at hm
                exact hw'.bits j m hm y hy
            pval := by
              rw [htl]
              show ValidPath (width I.N) ((st.lidx.set n x).take (n + 1))
              rw [htk]
              refine ValidPath.append ?_ hxw
              have := hw.pval.take n
              rwa [List.take_take, Nat.min_eq_left (by omega)] at this }
      · unfold chances
        show (remBelow (width I.N) I.D (fun _ => some ())
          ((st.iters.set n it').set (n + 1) (intoBitsIter mask)) (st.lidx.set n x) I.D).Sublist _
        rw [remBelow_split ha1 I.D (by omega), remBelow_split ha2 I.D (by omega)]
        rw [remAt_set_self hlt', intoBitsIter_rem hpos, hrn, htk, remBelow,
          remAt_set_ne (by omega), remAt_set_self hlt, hrem', List.flatMap_cons, List.append_assoc,
          List.take_set_of_le (Nat.le_refl n)]
        have e1 : I.D - n - 1 = (I.D - (n + 1) - 1) + 1 := by omega
        have hlow : remBelow (width I.N) I.D (fun _ => some ())
            ((st.iters.set n it').set (n + 1) (intoBitsIter mask)) (st.lidx.set n x) n =
            remBelow (width I.N) I.D (fun _ => some ()) st.iters st.lidx n := by
          apply remBelow_congr
          intro j hj
          rw [remAt_set_ne (by omega), remAt_set_ne (by omega)]
          exact ⟨rfl, fun _ => by rw [List.take_set_of_le (by omega)]⟩
        rw [hlow]
        refine List.Sublist.append ?_ (List.Sublist.refl _)
        rw [e1, under]
        refine flatMap_sublist ?_
        unfold Mask.ones
        rw [hml]
        exact List.filter_sublist
      · unfold rounds
        show mu (width I.N) I.D ((st.iters.set n it').set (n + 1) (intoBitsIter mask)) I.D < _
        rw [mu_split (by omega) ha1 I.D (by omega), mu_split (by omega) ha2 I.D (by omega)]
        rw [remAt_set_self hlt', intoBitsIter_rem hpos, hrn, mu,
          remAt_set_ne (by omega), remAt_set_self hlt, hrem']
        have hcg : mu (width I.N) I.D ((st.iters.set n it').set (n + 1) (intoBitsIter mask)) n =
            mu (width I.N) I.D st.iters n := by
          apply mu_congr
          intro j hj
          rw [remAt_set_ne (by omega), remAt_set_ne (by omega)]
        rw [hcg]
        have hfl : mask.ones.length ≤ width I.N := by
          unfold Mask.ones
          rw [hml]
          have := List.length_filter_le (fun j => Mask.bit mask j) (List.range (64 * I.N))
          rw [List.length_range] at this
          exact this
        have e2 : I.D - n - 1 = (I.D - (n + 1) - 1) + 1 := by omega
        have hw : wt (width I.N) (I.D - n - 1) =
            1 + width I.N * wt (width I.N) (I.D - (n + 1) - 1) := by rw [e2, wt]
        have hmul := Nat.mul_le_mul_right (wt (width I.N) (I.D - (n + 1) - 1)) hfl
        simp only [List.length_cons]
        rw [Nat.succ_mul]
        omega

theorem wit_search (hk : SturdyBy tm u h I s ok) : ∀ (n : Nat), n + 1 ≤ I.D → ∀ (st : IterSt Cur)
    (ms : List Mask) (b : Bool), WIt I ok st ms b → (∀ j, n ≤ j → remAt st.iters j = []) →
    Nub tm (iterateAsRangeRev (I.iterVisit s) 0 n st) (fun r => (∃ ms' b', WIt I ok r.1 ms' b') ∧
      (chances I r.1).Sublist (chances I st) ∧
      (r.2 = false → ∀ j, remAt r.1.iters j = []) ∧
      (r.2 = true → rounds I r.1 < rounds I st) ∧ rounds I r.1 ≤ rounds I st) := by
  intro n
  induction n with
  | zero =>
    intro _ st ms b hw ha
    exact Nub.ok ⟨⟨ms, b, hw⟩, List.Sublist.refl _, fun _ j => ha j (Nat.zero_le j),
      (fun e => by cases e), Nat.le_refl _⟩
  | succ n ih =>
    intro hn st ms b hw ha
    rw [iterateAsRangeRev]
    refine (wit_visit hk (n := n) (by omega) hw (fun j hj => ha j hj)).bind ?_
    rintro ⟨st', brk⟩ ⟨⟨ms', b', hw'⟩, h1, h2, h3⟩
    cases brk with
    | true => exact Nub.pure ⟨⟨ms', b', hw'⟩, h1, (fun e => by cases e), h3, Nat.le_of_lt (h3 rfl)⟩
    | false =>
      simp only [Bool.false_eq_true, if_false, Nat.add_one_ne_zero]
      obtain ⟨g1, g2⟩ := h2 rfl
      simp only at g2
      refine (ih (by omega) st' ms' b' hw' g1).imp ?_
      rintro r ⟨q1, q2, q3, q4, q5⟩
      exact ⟨q1, q2.trans h1, q3, fun e => by rw [← g2]; exact q4 e, by rw [← g2]; exact q5⟩

theorem wit_loop (hk : SturdyBy tm u h I s ok) : ∀ (fuel : Nat) (st : IterSt Cur) (ms : List Mask)
    (b : Bool), WIt I ok st ms b → (tm = true → rounds I st < fuel) →
    Nub tm (I.iterLoop s fuel st) (fun r => rounds I r.2 ≤ rounds I st ∧
      ∃ ms' b', WIt I ok r.2 ms' b' ∧ (r.1 = none → ∀ j, remAt r.2.iters j = []) ∧
      ∀ i, r.1 = some i → ms'.length = I.D ∧ i < width I.N ∧
        (∀ (m : Mask), ms'[I.D - 1]? = some m → m.bit i = true) ∧
        ((unpath (width I.N) (r.2.lidx ++ [i]), ()) :: chances I r.2).Sublist (chances I st)) := by
  intro fuel
  induction fuel with
  | zero => intro st ms b _ hf; exact Nub.fuel fun e => absurd (hf e) (by omega)
  | succ fuel ih =>
    intro st ms b hw hf
    have hD := hk.cfg.depth
    have hlt : st.iters.length - 1 < st.iters.length := by rw [hw.iters]; omega
    have hget : st.iters[st.iters.length - 1]? = some st.iters[st.iters.length - 1] :=
      List.getElem?_eq_getElem hlt
    obtain ⟨it', hnext, hwf', hrem'⟩ := next_spec (hw.wf _ _ hget)
    have hw' := hw.next hget hwf' hrem'
    have hn1 : st.iters.length - 1 = I.D - 1 := by rw [hw.iters]
    have ha1 : ∀ j, I.D - 1 < j → remAt st.iters j = [] := by
      intro j hj
      have := hw.len
      exact hw.above j (by omega)
    have ha2 : ∀ j, I.D - 1 < j → remAt (st.iters.set (st.iters.length - 1) it') j = [] := by
      intro j hj
      rw [remAt_set_ne (by omega)]; exact ha1 j hj
    rw [Impl.iterLoop]
    simp only [getP_some hget, bind_ok, hnext]
    cases hr : (st.iters[st.iters.length - 1]).rem with
    | cons x rest =>
      simp only [List.head?_cons]
      have hrn : remAt st.iters (I.D - 1) = x :: rest := by
        rw [← hw.iters, remAt_of_some hget, hr]
      have hrn' : remAt (st.iters.set (st.iters.length - 1) it') (I.D - 1) = rest := by
        rw [← hn1, remAt_set_self hlt, hrem', hr]; rfl
      have hx : x ∈ remAt st.iters (I.D - 1) := by rw [hrn]; simp
      have hml : ms.length = I.D := by
        apply Classical.byContradiction
        intro hc
        have := hw.len
        rw [hw.above (I.D - 1) (by omega)] at hx
        cases hx
      refine Nub.pure ⟨?_, ms, b, hw', (fun e => by cases e), fun i hi => ?_⟩
      · unfold rounds
        rw [mu_split (by omega) ha1 I.D (by omega)]
        show mu (width I.N) I.D (st.iters.set (st.iters.length - 1) it') I.D ≤ _
        rw [mu_split (by omega) ha2 I.D (by omega), hrn, hrn']
        have hcg : mu (width I.N) I.D (st.iters.set (st.iters.length - 1) it') (I.D - 1) =
            mu (width I.N) I.D st.iters (I.D - 1) :=
          mu_congr _ (fun j hj => remAt_set_ne (by omega) _)
        rw [hcg]
        have := Nat.mul_le_mul_right (wt (width I.N) (I.D - (I.D - 1) - 1))
          (show rest.length ≤ (x :: rest).length by simp)
        omega
      cases hi
      have hgm : ms[I.D - 1]? = some ms[I.D - 1] := List.getElem?_eq_getElem (by omega)
      have hb := hw.bits _ _ hgm x hx
      refine ⟨hml, bit_width (hw.masks _ (List.getElem_mem _)) hb, fun m hm => ?_, ?_⟩
      · rw [hgm] at hm
        cases hm
        exact hb
      · unfold chances
        show (_ :: remBelow (width I.N) I.D (fun _ => some ())
          (st.iters.set (st.iters.length - 1) it') st.lidx I.D).Sublist _
        rw [remBelow_split ha1 I.D (by omega), remBelow_split ha2 I.D (by omega), hrn, hrn']
        have e0 : I.D - (I.D - 1) - 1 = 0 := by omega
        have hll : st.lidx.take (I.D - 1) = st.lidx := List.take_of_length_le (by rw [hw.lidx]; omega)
        rw [e0, List.flatMap_cons, hll, List.append_assoc]
        simp only [under, Option.map_some, Option.toList_some, List.singleton_append]
        have hlow : remBelow (width I.N) I.D (fun _ => some ())
            (st.iters.set (st.iters.length - 1) it') st.lidx (I.D - 1) =
            remBelow (width I.N) I.D (fun _ => some ()) st.iters st.lidx (I.D - 1) := by
          apply remBelow_congr
          intro j hj
          rw [remAt_set_ne (by omega)]
          exact ⟨rfl, fun _ => rfl⟩
        rw [hlow]
        exact List.Sublist.refl _
    | nil =>
      simp only [List.head?_nil]
      have hsame : ∀ j, remAt (st.iters.set (st.iters.length - 1) it') j = remAt st.iters j := by
        intro j
        by_cases hj : st.iters.length - 1 = j
        · subst hj; rw [remAt_set_self hlt, hrem', remAt_of_some hget, hr]; rfl
        · exact remAt_set_ne hj _
      have hro : rounds I { st with iters := st.iters.set (st.iters.length - 1) it' } = rounds I st :=
        rounds_congr hsame
      have hch : chances I { st with iters := st.iters.set (st.iters.length - 1) it' } = chances I st :=
        chances_congr hsame rfl
      refine (wit_search hk (I.D - 1) (by omega) _ ms b hw' ?_).bind ?_
      · intro j hj
        by_cases hj' : j = I.D - 1
        · subst hj'
          show remAt (st.iters.set (st.iters.length - 1) it') _ = []
          rw [← hw.iters, remAt_set_self hlt, hrem', hr]; rfl
        · have hj2 : I.D ≤ j := by omega
          have := hw.len
          exact hw'.above j (by omega)
      · rintro ⟨st', brk⟩ ⟨⟨ms', b', hw''⟩, q1, q2, q3, q4⟩
        rw [hro] at q3 q4
        rw [hch] at q1
        simp only at q1 q2 q3 q4
        cases brk with
        | true =>
          refine (ih st' ms' b' hw'' fun e => ?_).imp ?_
          · have h1 := hf e
            have h2 := q3 rfl
            omega
          · rintro r ⟨w0, ms2, b2, w1, w2, w3⟩
            refine ⟨Nat.le_trans w0 q4, ms2, b2, w1, w2, fun i hi => ?_⟩
            obtain ⟨z1, z2, z3, z4⟩ := w3 i hi
            exact ⟨z1, z2, z3, z4.trans q1⟩
        | false => exact Nub.pure ⟨q4, ms', b', hw'', fun _ => q2 rfl, fun i e => by cases e⟩

theorem wit_next (hk : SturdyBy tm true h I s ok) (fuel : Nat) (st : IterSt Cur) (ms : List Mask)
    (b : Bool) (hw : WIt I ok st ms b) (hf : tm = true → rounds I st < fuel) :
    Nub tm (I.iterNext s fuel st) (fun r => rounds I r.2 ≤ rounds I st ∧
      (∃ ms' b', WIt I ok r.2 ms' b') ∧ (r.1 = none → chances I r.2 = []) ∧
      ∀ k d, r.1 = some (k, d) → ((k, ()) :: chances I r.2).Sublist (chances I st)) := by
  unfold Impl.iterNext
  refine (wit_loop hk fuel st ms b hw hf).bind ?_
  rintro ⟨o, st'⟩ ⟨h0, ms', b', hw', hn, hi⟩
  cases o with
  | none =>
    exact Nub.pure ⟨h0, ⟨ms', b', hw'⟩, fun _ => chances_nil (hn rfl), fun _ _ e => by cases e⟩
  | some i =>
    obtain ⟨h1, h2, h3, h4⟩ := hi i rfl
    have hD := hk.cfg.depth
    have hpv := hw'.pval
    have hll := hw'.lidx
    simp only at h4 hpv hll
    rw [List.take_of_length_le (by omega)] at hpv
    refine (hk.curDataU rfl st'.cur ms' b' i hw'.cur h1 h2 h3).bind fun d _ => ?_
    rw [dataBlockIndex_eq hk.cfg (q := st'.lidx) (by omega) hpv h2
      (List.take_of_length_le (Nat.le_refl _))]
    simp only [bind_ok]
    refine Nub.pure ⟨h0, ⟨ms', b', hw'⟩, (fun e => by cases e), fun k d' e => ?_⟩
    cases e
    exact h4

theorem wit_take (hk : SturdyBy tm true h I s ok) (fuel : Nat) : ∀ (n : Nat) (st : IterSt Cur)
    (ms : List Mask) (b : Bool), WIt I ok st ms b → (tm = true → rounds I st < fuel) →
    Nub tm (I.iterTake s fuel n st) (fun l => ∃ (items : List (Nat × δ)) (m : Nat), l = items.map some ++ List.replicate m none ∧
      (items.map Prod.fst).Sublist ((chances I st).map Prod.fst)) := by
  intro n
  induction n with
  | zero => intro st ms b _ _; exact Nub.ok ⟨[], 0, rfl, List.nil_sublist _⟩
  | succ n ih =>
    intro st ms b hw hf
    rw [Impl.iterTake]
    refine (wit_next hk fuel st ms b hw hf).bind ?_
    rintro ⟨o, st'⟩ ⟨h0, ⟨ms', b', hw'⟩, h1, h2⟩
    simp only at h0 h1 h2
    refine (ih st' ms' b' hw' fun e => Nat.lt_of_le_of_lt h0 (hf e)).bind ?_
    rintro l ⟨items, m, rfl, hs⟩
    cases o with
    | none =>
      rw [h1 rfl] at hs
      have : items = [] := List.map_eq_nil_iff.1 (List.sublist_nil.1 hs)
      subst this
      exact Nub.pure ⟨[], m + 1, rfl, List.nil_sublist _⟩
    | some kd =>
      obtain ⟨k, d⟩ := kd
      refine Nub.pure ⟨(k, d) :: items, m, rfl, ?_⟩
      have := (h2 k d rfl).map Prod.fst
      rw [List.map_cons] at this
      rw [List.map_cons]
      exact (hs.cons_cons k).trans this

theorem wit_new (hk : SturdyBy tm u h I s ok) :
    Nub tm (I.iterNew s) (fun st => (∃ ms b, WIt I ok st ms b) ∧
      ((chances I st).map Prod.fst).Sublist (List.range (width I.N ^ I.D)) ∧
      rounds I st ≤ width I.N * wt (width I.N) (I.D - 1)) := by
  have hD := hk.cfg.depth
  have hN : 0 < I.N := by rcases hk.cfg.words with e | e | e <;> omega
  unfold Impl.iterNew
  simp only
  refine hk.create.bind fun c hc => ?_
  refine (hk.selectU c [] true 0 0 hc (by simp) hD (by unfold width; omega) (fun _ => rfl)
    (by intro m hm; omega)).bind ?_
  rintro ⟨m, c'⟩ ⟨hml, hok⟩
  simp only at hml hok ⊢
  have hne : ¬ (List.replicate I.D (BitsIter.empty I.N)).length = 0 := by simp; omega
  rw [if_neg hne]
  have hpos : 0 < m.length := by omega
  have hlt : 0 < (List.replicate I.D (BitsIter.empty I.N)).length := by simp; omega
  have habove : ∀ j, 0 < j →
      remAt ((List.replicate I.D (BitsIter.empty I.N)).set 0 (intoBitsIter m)) j = [] := by
    intro j hj
    rw [remAt_set_ne (by omega)]
    simp only [remAt, List.getElem?_replicate]
    split
    · simp [empty_rem hN]
    · rfl
  have hones : m.ones.Sublist (List.range (width I.N)) := by
    unfold Mask.ones
    rw [hml]
    exact List.filter_sublist
  refine Nub.pure ⟨⟨[m], false, ?_⟩, ?_, ?_⟩
  rotate_left
  · unfold chances
    simp only
    rw [remBelow_split habove I.D hD, remAt_set_self hlt, intoBitsIter_rem hpos]
    have h1 := flatMap_sublist (f := fun x => under (width I.N) (fun _ => some ()) (I.D - 0 - 1)
      ((List.replicate (I.D - 1) (usizeMod - 1)).take 0 ++ [x])) hones
    have h2 : (List.range (width I.N)).flatMap (fun x => under (width I.N) (fun _ => some ())
        (I.D - 0 - 1) ((List.replicate (I.D - 1) (usizeMod - 1)).take 0 ++ [x])) =
        entries (width I.N) I.D (fun _ => some ()) := by
      rw [← under_root]
      have e1 : I.D = (I.D - 0 - 1) + 1 := by omega
      rw [e1, under]
      simp
    rw [h2] at h1
    simp only [remBelow, List.append_nil]
    have h3 : (entries (width I.N) I.D (fun _ => some ())).map Prod.fst =
        List.range (width I.N ^ I.D) := by
      unfold entries
      rw [List.map_filterMap]
      simp
    rw [← h3]
    exact h1.map _
  · unfold rounds
    simp only
    rw [mu_split hD habove I.D hD, remAt_set_self hlt, intoBitsIter_rem hpos]
    have := hones.length_le
    rw [List.length_range] at this
    simp only [mu, Nat.sub_zero, Nat.add_zero]
    exact Nat.mul_le_mul_right _ this
  exact
    { one := by simp
      len := by simp; omega
      cur := by simpa using hok
      masks := by intro m' hm; simp at hm; rw [hm]; exact hml
      lidx := by simp
      iters := by simp
      wf := getElem?_set_wf (by
        intro j x hx
        rw [List.getElem?_replicate] at hx
        split at hx
        · cases hx; exact empty_wf hN
        · cases hx) (hml ▸ intoBitsIter_wf hpos)
      above := by
        intro j hj
        simp at hj
        rw [remAt_set_ne (by omega)]
        unfold remAt
        rw [List.getElem?_replicate]
        split
        · exact empty_rem hN
        · rfl
      bits := by
        intro j m' hm x hx
        have hj : j = 0 := by
          have := (List.getElem?_eq_some_iff.1 hm).1
          simp at this; exact this
        subst hj
        simp at hm
        subst hm
        rw [remAt_set_self hlt, intoBitsIter_rem hpos] at hx
        exact mem_ones.1 hx
      pval := by simp [ValidPath] }

/-- Iterating over such a tree has no undefined behaviour, yields each index once and in order, and
ends, whatever the tree answers. -/
theorem Sturdy.iter_all (hs : Sturdy tm true h I s) (fuel n : Nat)
    (hf : tm = true → width I.N * wt (width I.N) (I.D - 1) < fuel) :
    Nub tm (I.iterRun s fuel n) (fun l => ∃ (items : List (Nat × δ)) (m : Nat), l = items.map some ++ List.replicate m none ∧
      (items.map Prod.fst).Sublist (List.range (width I.N ^ I.D))) := by
  obtain ⟨ok, hk⟩ := hs
  unfold Impl.iterRun
  refine (wit_new hk).bind ?_
  rintro st ⟨⟨ms, b, hw⟩, h1, h2⟩
  refine (wit_take hk fuel n st ms b hw fun e => Nat.lt_of_le_of_lt h2 (hf e)).imp ?_
  rintro l ⟨items, m, e, hs⟩
  exact ⟨items, m, e, hs.trans h1⟩

theorem Nub.forget {α : Type} {x : R α} {P : α → Prop} (hx : Nub tm x P) : Nub false x P :=
  ⟨⟨hx.1.1, fun e => by cases e⟩, hx.2⟩

theorem Sturdy.forget (hs : Sturdy tm u h I s) : Sturdy false u h I s := by
  obtain ⟨ok, hk⟩ := hs
  exact ⟨ok, hk.cfg, hk.len, fun p h1 h2 => (hk.data p h1 h2).forget, hk.create.forget,
    fun c ms b n i h1 h2 h3 h4 h5 => (hk.select c ms b n i h1 h2 h3 h4 h5).forget,
    fun c ms b n i h1 h2 h3 h4 h5 h6 => (hk.selectU c ms b n i h1 h2 h3 h4 h5 h6).forget,
    fun c ms i h1 h2 h3 => (hk.curData c ms i h1 h2 h3).forget,
    fun e c ms b i h1 h2 h3 h4 => (hk.curDataU e c ms b i h1 h2 h3 h4).forget⟩

theorem Sturdy.iter (hs : Sturdy tm true h I s) (fuel n : Nat) : I.iterRun s fuel n ≠ .error .ub :=
  (hs.forget.iter_all fuel n (fun e => by cases e)).1.1

end

end Hibit
