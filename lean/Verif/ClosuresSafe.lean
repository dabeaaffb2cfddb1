import Verif.ClosuresLaw
/-!
# Tree expressions with closures have no undefined behaviour: lemmas
-/
namespace Hibit

instance {σ : Type} : LawfulMonad (EM σ) := .mk' (EM σ)
  (id_map := fun m => by
    show m >>= (fun a => pure a) = m
    exact EM.bind_pure m)
  (pure_bind := fun a f => EM.pure_bind a f)
  (bind_assoc := fun m f g => EM.bind_assoc m f g)

/-- All items such an iterator can still yield satisfy `V`, and it has no undefined behaviour. -/
def Steps {σ δ : Type} (V : δ → Prop) (it : Strm σ δ) : Prop :=
  ∀ m ∈ it, Total (fun o => ∀ d, o = some d → V d) m

theorem Total.pure {σ α : Type} {P : α → Prop} {a : α} (h : P a) : Total (σ := σ) P (Pure.pure a) :=
  fun z => ⟨.returned a, z, rfl, fun b e => by cases e; exact h⟩

theorem Total.bind {σ α β : Type} {P : α → Prop} {Q : β → Prop} {m : EM σ α} {f : α → EM σ β}
    (h : Total P m) (hf : ∀ a, P a → Total Q (f a)) : Total Q (m >>= f) := by
  intro z
  obtain ⟨o, z', e, hP⟩ := h z
  cases o with
  | panicked =>
    refine ⟨.panicked, z', ?_, fun a e => by cases e⟩
    show (m z >>= _ : R _) = _
    rw [e]; rfl
  | returned a =>
    obtain ⟨o', z'', e', hQ⟩ := hf a (hP a rfl) z'
    refine ⟨o', z'', ?_, hQ⟩
    show (m z >>= _ : R _) = _
    rw [e]; exact e'

theorem Total.imp {σ α : Type} {P Q : α → Prop} {m : EM σ α} (h : Total P m) (hpq : ∀ a, P a → Q a) :
    Total Q m := by
  intro z
  obtain ⟨o, z', e, hP⟩ := h z
  exact ⟨o, z', e, fun a ea => hpq a (hP a ea)⟩

/-- `Some` exactly if present, and then `V`. -/
def Answers {δ : Type} (present : Bool) (V : δ → Prop) (o : Option δ) : Prop :=
  o.isSome = present ∧ ∀ d, o = some d → V d

/-- What a specification does has no undefined behaviour, and checked access answers `Some` exactly at present keys. -/
structure ESafe {σ δ : Type} (x : Bool) (E : ESpec σ δ) (V : δ → Prop) : Prop where
  get : ∀ k, Total (Answers (E.present k) V) (E.get k)
  getU : ∀ k, E.present k = true → Total V (E.getU k)
  curU : ∀ k, E.present k = true → Total V (E.curU k)
  cur : x = true → ∀ k, Total (Answers (E.present k) V) (E.cur k)

theorem total_unwrap {σ δ : Type} {V : δ → Prop} {o : Option δ} (h : Answers true V o) :
    Total V (EM.lift (unwrapU o) : EM σ δ) := by
  cases o with
  | none => cases h.1
  | some d => exact Total.pure (h.2 d rfl)

theorem total_apply {σ δ ε : Type} {V : δ → Prop} {V' : ε → Prop} {f : δ → EM σ ε}
    (hf : ∀ d, V d → Total V' (f d)) {b : Bool} {o : Option δ} (h : Answers b V o) :
    Total (Answers b V') (applyE f o) := by
  cases o with
  | none => exact Total.pure ⟨h.1, fun d e => by cases e⟩
  | some d =>
    exact (hf d (h.2 d rfl)).bind fun e he => Total.pure ⟨h.1, fun d e => by cases e; exact he⟩

theorem total_pair {σ α β : Type} {P : α → Prop} {Q : β → Prop} {a : EM σ α} {b : EM σ β}
    (ha : Total P a) (hb : Total Q b) : Total (fun r => P r.1 ∧ Q r.2) (pairE a b) :=
  ha.bind fun _ hx => hb.bind fun _ hy => Total.pure ⟨hx, hy⟩

theorem answers_either {δ0 δ1 : Type} {b0 b1 : Bool} {V0 : δ0 → Prop} {V1 : δ1 → Prop} {o0 : Option δ0}
    {o1 : Option δ1} (h0 : Answers b0 V0 o0) (h1 : Answers b1 V1 o1) :
    Answers (b0 || b1) (fun e : Option δ0 × Option δ1 =>
      (∀ v, e.1 = some v → V0 v) ∧ ∀ v, e.2 = some v → V1 v) (eitherOf o0 o1) := by
  obtain ⟨rfl, h0⟩ := h0
  obtain ⟨rfl, h1⟩ := h1
  cases o0 <;> cases o1 <;> simp_all [Answers, eitherOf]

theorem answers_both {δ0 δ1 : Type} {b0 b1 : Bool} {V0 : δ0 → Prop} {V1 : δ1 → Prop} {o0 : Option δ0}
    {o1 : Option δ1} (h0 : Answers b0 V0 o0) (h1 : Answers b1 V1 o1) :
    Answers (b0 && b1) (fun e : δ0 × δ1 => V0 e.1 ∧ V1 e.2) (bothOf o0 o1) := by
  obtain ⟨rfl, h0⟩ := h0
  obtain ⟨rfl, h1⟩ := h1
  cases o0 <;> cases o1 <;> simp_all [Answers, bothOf]

theorem total_someE {σ δ : Type} {V : δ → Prop} {m : EM σ δ} (h : Total V m) :
    Total (fun o => ∀ d, o = some d → V d) (someE m) :=
  h.bind fun _ hd => Total.pure fun _ e => by cases e; exact hd

theorem steps_ready {σ δ : Type} {V : δ → Prop} {ds : List δ} (h : ∀ d ∈ ds, V d) :
    Steps V (Strm.ready ds : Strm σ δ) := by
  intro m hm
  simp only [Strm.ready, List.mem_map] at hm
  obtain ⟨d, hd, rfl⟩ := hm
  exact Total.pure fun d' e => by cases e; exact h d hd

theorem total_fold {σ δ β : Type} {V : δ → Prop} {V' : β → Prop} {f : β → δ → EM σ β}
    (hf : ∀ b d, V' b → V d → Total V' (f b d)) : ∀ (it : Strm σ δ) (b : β), Steps V it → V' b →
    Total V' (it.fold f b)
  | [], b, _, hb => Total.pure hb
  | m :: ms, b, h, hb => by
    have ht : Steps V ms := fun m hm => h m (by simp [hm])
    refine (h m (by simp)).bind fun o ho => ?_
    cases o with
    | none => exact total_fold hf ms b ht hb
    | some d => exact (hf b d hb (ho d rfl)).bind fun b hb => total_fold hf ms b ht hb

theorem total_askAll {σ δ : Type} {V : δ → Prop} : ∀ (l : List (EM σ (Option δ))) (bs : List Bool),
    All2 (fun m b => Total (Answers b V) m) l bs →
    Total (fun ds => ds.isEmpty = !bs.any id ∧ ∀ d ∈ ds, V d) (askAll l)
  | [], [], _ => Total.pure ⟨rfl, fun d h => by simp at h⟩
  | [], _ :: _, h => h.elim
  | _ :: _, [], h => h.elim
  | m :: ms, b :: bs, h => by
    refine h.1.bind fun o ho => (total_askAll ms bs h.2).bind fun ds hds => Total.pure ?_
    obtain ⟨rfl, ho⟩ := ho
    cases o with
    | none => simpa using hds
    | some d =>
      refine ⟨by simp, fun d' hd' => ?_⟩
      simp only [Option.toList_some, List.singleton_append, List.mem_cons] at hd'
      rcases hd' with rfl | hd'
      · exact ho _ rfl
      · exact hds.2 _ hd'

theorem total_askWhile {σ δ : Type} {V : δ → Prop} : ∀ (l : List (EM σ (Option δ))) (bs : List Bool),
    All2 (fun m b => Total (Answers b V) m) l bs →
    Total (Answers (bs.all id) (fun ds => ∀ d ∈ ds, V d)) (askWhile l)
  | [], [], _ => Total.pure ⟨rfl, fun ds e => by cases e; simp⟩
  | [], _ :: _, h => h.elim
  | _ :: _, [], h => h.elim
  | m :: ms, b :: bs, h => by
    refine h.1.bind fun o ho => ?_
    obtain ⟨rfl, ho⟩ := ho
    cases o with
    | none => exact Total.pure ⟨rfl, fun ds e => by cases e⟩
    | some d =>
      refine (total_askWhile ms bs h.2).bind fun ods hds => Total.pure ⟨?_, ?_⟩
      · simpa using hds.1
      · intro ds e
        cases ods with
        | none => cases e
        | some ds' =>
          cases e
          intro d' hd'
          rcases List.mem_cons.1 hd' with rfl | hd'
          · exact ho _ rfl
          · exact hds.2 _ rfl _ hd'

theorem all2_map {α β γ : Type} {P : β → γ → Prop} (f : α → β) (g : α → γ) : ∀ (l : List α),
    (∀ a ∈ l, P (f a) (g a)) → All2 P (l.map f) (l.map g)
  | [], _ => trivial
  | a :: l, h => ⟨h a (by simp), all2_map f g l fun a ha => h a (by simp [ha])⟩

theorem block_self {σ δ : Type} {W : Nat} (hW : 0 < W) {A : ESpec σ δ} {k : Nat} (h : A.present k = true) :
    blockPresent W A k = true := by
  simp only [blockPresent, List.any_eq_true, List.mem_range]
  refine ⟨k % W, Nat.mod_lt _ hW, ?_⟩
  rw [Nat.mul_comm, Nat.div_add_mod]; exact h

end Hibit
