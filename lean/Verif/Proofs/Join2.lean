import Verif.Spec.Join3
import Verif.Props.Paste2
import Verif.Proofs.Load3e

/-!
# Joining stage-2 sequences, texts included
-/

namespace LatexAst.Ast2
open Spec

theorem survives_same {d d' : Document} (h : Survives d) (hs : SameButLines d d') : Survives d' :=
  C106 d d' h (retexted_both (R := fun t t' => t' = t) (S := fun t t' => t' = t) (by rintro t t1 t2 rfl rfl; exact Ast1.replaces_refl _) (same_refl d) hs)

theorem neat_join : ∀ {a b : List Chunk}, NeatSeq a → NeatSeq b → (∀ i l t, a = i ++ [.mk l (.text t)] → ¬ StartsText b) → NeatSeq (a ++ b)
  | [], _, _, h, _ => h
  | .mk l v :: a, b, ha, hb, hn => by
    refine ⟨ha.1, neat_join ha.2.1 hb (fun i l' t he => hn (.mk l v :: i) l' t (by rw [he]; rfl)), fun ht hs => ?_⟩
    obtain ⟨t, rfl⟩ := ht
    cases a with
    | nil => exact hn [] l t rfl hs
    | cons c a => obtain ⟨l', v'⟩ := c; exact ha.2.2 ⟨t, rfl⟩ (by cases v' <;> simp_all [StartsText])

/-- In neat chunks a sequence of texts is a single one. -/
theorem neat_texts {a w b : List Chunk} (h : NeatSeq (a ++ w ++ b)) (hw : ∀ c ∈ w, ∃ t, c.variant = .text t ∧ Blank t) :
    w = [] ∨ ∃ l t, w = [.mk l (.text t)] ∧ Blank t := by
  obtain ⟨h1, _⟩ := neat_append h
  obtain ⟨_, h2⟩ := neat_append h1
  match w, h2, hw with
  | [], _, _ => exact .inl rfl
  | [.mk l v], _, hw =>
    obtain ⟨t, ht, hb⟩ := hw _ (.head _)
    simp only [Chunk.variant] at ht; subst ht
    exact .inr ⟨l, t, rfl, hb⟩
  | .mk l v :: .mk l' v' :: w, h2, hw =>
    obtain ⟨t, ht, _⟩ := hw _ (.head _)
    obtain ⟨t', ht', _⟩ := hw _ (.tail _ (.head _))
    simp only [Chunk.variant] at ht ht'; subst ht ht'
    exact absurd trivial (h2.2.2 ⟨t, rfl⟩)

theorem joins_touches {a b : List Chunk} (h : NeatSeq (a ++ b)) : Joins a b ↔ Touches a b := by
  constructor
  · rintro ⟨_, h2, h3, h4⟩
    refine ⟨h2, h3, fun i w w' l v r he hb hc hw => h4 i w w' l v r he hb hc ?_⟩
    subst he hb
    exact neat_texts (a := i) (b := .mk l v :: r) (by simpa [List.append_assoc] using h) hw
  · rintro ⟨h2, h3, h4⟩
    refine ⟨?_, h2, h3, fun i w w' l v r he hb hc hw => h4 i w w' l v r he hb hc ?_⟩
    · rintro i l t l' t' r rfl rfl
      rw [List.append_assoc] at h
      exact (neat_append h).2.2.2 ⟨t, rfl⟩ trivial
    · rcases hw with hw | ⟨l, t, hw, hb⟩
      · rw [hw]; simp
      · rw [hw]; simp [Chunk.variant, hb]

theorem last_cases (a : List Chunk) : (∃ i l t, a = i ++ [.mk l (.text t)]) ∨ ¬ ∃ i l t, a = i ++ [.mk l (.text t)] := Classical.em _

theorem not_endsLike_text {i : List Chunk} {l t} : ¬ EndsLikeCommand (i ++ [.mk l (.text t)]) := by
  rintro ⟨j, l', v, he, h⟩
  have := (List.append_inj' he rfl).2
  simp at this
  rcases h with ⟨x, r, args, hv, _⟩ | ⟨e, hv⟩ <;> simp_all

theorem joins_text {x : List Chunk} {l l' : Nat} {t u : Str} (ht : t ≠ []) : Joins x [.mk l (.text (t ++ u))] ↔ Joins x [.mk l' (.text t)] := by
  obtain ⟨c, t, rfl⟩ : ∃ c r, t = c :: r := by cases t with
    | nil => exact absurd rfl ht
    | cons c t => exact ⟨c, t, rfl⟩
  unfold Joins
  refine and_congr ?_ (and_congr ?_ (and_congr ?_ ?_))
  · constructor
    · intro h i l t1 l2 t2 r he hb; exact h i l t1 _ _ [] he rfl
    · intro h i l t1 l2 t2 r he hb; exact h i l t1 _ _ [] he rfl
  · constructor
    · intro h i l x name args l2 t2 r he hx hb
      cases hb
      obtain ⟨h1, h2⟩ := h i l x name args _ _ [] he hx rfl
      refine ⟨fun ha => ?_, fun ha y z hy => ?_⟩
      · obtain ⟨y, z, hy, hw⟩ := h1 ha; cases hy; exact ⟨_, _, rfl, hw⟩
      · cases hy; exact h2 ha _ _ rfl
    · intro h i l x name args l2 t2 r he hx hb
      cases hb
      obtain ⟨h1, h2⟩ := h i l x name args _ _ [] he hx rfl
      refine ⟨fun ha => ?_, fun ha y z hy => ?_⟩
      · obtain ⟨y, z, hy, hw⟩ := h1 ha; cases hy; exact ⟨_, _, rfl, hw⟩
      · cases hy; exact h2 ha _ _ rfl
  · constructor
    · intro h i l env l2 t2 r he hb y z hy
      cases hb; cases hy
      exact h i l env _ _ [] he rfl _ _ rfl
    · intro h i l env l2 t2 r he hb y z hy
      cases hb; cases hy
      exact h i l env _ _ [] he rfl _ _ rfl
  · constructor
    · intro _ i w w' l v r he hb _ _
      cases w' with
      | nil => simp at hb; obtain ⟨⟨_, rfl⟩, _⟩ := hb; exact ⟨fun _ h => (by cases h), fun _ _ h => (by cases h)⟩
      | cons _ w' => simp at hb
    · intro _ i w w' l v r he hb _ _
      cases w' with
      | nil => simp at hb; obtain ⟨⟨_, rfl⟩, _⟩ := hb; exact ⟨fun _ h => (by cases h), fun _ _ h => (by cases h)⟩
      | cons _ w' => simp at hb

theorem blank_append {t u : Str} : Blank (t ++ u) ↔ Blank t ∧ Blank u := by
  unfold Blank
  constructor
  · intro h; exact ⟨fun c hc => h c (List.mem_append_left _ hc), fun c hc => h c (List.mem_append_right _ hc)⟩
  · rintro ⟨h1, h2⟩ c hc
    rcases List.mem_append.1 hc with hc | hc
    · exact h1 c hc
    · exact h2 c hc

/-- Two texts that come together. -/
theorem survives_texts {x y : List Chunk} {l l1 l2 : Nat} {t u : Str} (hx : NeatSeq (x ++ [.mk l1 (.text t)])) (hy : NeatSeq (.mk l2 (.text u) :: y)) :
    Survives (x ++ [.mk l (.text (t ++ u))] ++ y) ↔
      Survives (x ++ [.mk l1 (.text t)]) ∧ Survives (.mk l2 (.text u) :: y) ∧ Touches (x ++ [.mk l1 (.text t)]) (.mk l2 (.text u) :: y) := by
  have ht : t ≠ [] := (neat_append hx).2.1
  have hu : u ≠ [] := hy.1
  have hys : ¬ StartsText y := hy.2.2 ⟨u, rfl⟩
  have e1 : Survives [.mk l (.text (t ++ u))] ↔ Survives [.mk l1 (.text t)] ∧ Survives [.mk l2 (.text u)] := by
    rw [C108_text, C108_text, C108_text]
    constructor
    · rintro ⟨_, h⟩
      exact ⟨⟨ht, fun c hc => h c (List.mem_append_left _ hc)⟩, hu, fun c hc => h c (List.mem_append_right _ hc)⟩
    · rintro ⟨⟨_, h1⟩, _, h2⟩
      refine ⟨by simp [ht], fun c hc => ?_⟩
      rcases List.mem_append.1 hc with hc | hc
      · exact h1 c hc
      · exact h2 c hc
  have e2 : Joins [.mk l2 (.text u)] y := by
    refine ⟨?_, ?_, ?_, ?_⟩
    · rintro i l t l' t' r _ rfl; exact hys trivial
    · intro i l x name args l' t r he; have := (List.append_inj' (s₁ := []) he rfl).2; simp at this
    · intro i l env l' t r he; have := (List.append_inj' (s₁ := []) he rfl).2; simp at this
    · intro i w w' l v r he _ hc
      cases i with
      | nil => obtain ⟨j, _, _, hj, _⟩ := hc; simp at hj
      | cons c i =>
        simp at he
        obtain ⟨rfl, rfl, rfl⟩ := he
        exact absurd hc (not_endsLike_text (i := []))
  have e3 : Joins (x ++ [.mk l (.text (t ++ u))]) y ↔ Touches (x ++ [.mk l1 (.text t)]) (.mk l2 (.text u) :: y) := by
    constructor
    · rintro ⟨_, _, _, h4⟩
      refine ⟨?_, ?_, ?_⟩
      · intro i l x name args l' t r he; have := (List.append_inj' he rfl).2; simp at this
      · intro i l env l' t r he; have := (List.append_inj' he rfl).2; simp at this
      · intro i w w' m v r he hb hc hw
        cases w' with
        | nil =>
          simp at hb
          obtain ⟨⟨_, rfl⟩, _⟩ := hb
          exact ⟨fun _ h => (by cases h), fun _ _ h => (by cases h)⟩
        | cons c w' =>
          simp only [List.cons_append, List.cons.injEq] at hb
          obtain ⟨rfl, rfl⟩ := hb
          have hw' : w' = [] := by
            rcases neat_texts (a := []) (w := .mk l2 (.text u) :: w') (b := .mk m v :: r) (by simpa using hy) (fun c hc => hw c (List.mem_append_right _ hc)) with h | ⟨_, _, h, _⟩
            · cases h
            · simp at h; exact h.2
          subst hw'
          have hwt : w = [.mk l1 (.text t)] ∧ i = x := by
            rcases neat_texts (a := i) (w := w) (b := []) (by rw [List.append_nil, ← he]; exact hx) (fun c hc => hw c (List.mem_append_left _ hc)) with rfl | ⟨_, _, rfl, _⟩
            · rw [List.append_nil] at he; rw [← he] at hc; exact absurd hc not_endsLike_text
            · obtain ⟨h1, h2⟩ := List.append_inj' he rfl; exact ⟨h2.symm, h1.symm⟩
          obtain ⟨rfl, rfl⟩ := hwt
          refine h4 i [.mk l (.text (t ++ u))] [] m v r rfl rfl hc (.inr ⟨_, _, rfl, ?_⟩)
          rw [blank_append]
          obtain ⟨t0, h5, h6⟩ := hw (.mk l1 (.text t)) (by simp)
          obtain ⟨u0, h7, h8⟩ := hw (.mk l2 (.text u)) (by simp)
          simp only [Chunk.variant, ChunkVariant.text.injEq] at h5 h7
          subst h5 h7
          exact ⟨h6, h8⟩
    · rintro ⟨_, _, h4⟩
      refine ⟨?_, ?_, ?_, ?_⟩
      · rintro i l t l' t' r _ rfl; exact hys trivial
      · intro i l x name args l' t r he; have := (List.append_inj' he rfl).2; simp at this
      · intro i l env l' t r he; have := (List.append_inj' he rfl).2; simp at this
      · intro i w w' m v r he hb hc hw
        rcases hw with hw | ⟨lw, tw, hw, hbl⟩
        · obtain ⟨rfl, rfl⟩ := List.append_eq_nil_iff.1 hw
          rw [List.append_nil] at he; rw [← he] at hc; exact absurd hc not_endsLike_text
        · cases w with
          | nil => rw [List.append_nil] at he; rw [← he] at hc; exact absurd hc not_endsLike_text
          | cons c w =>
            simp only [List.cons_append, List.cons.injEq] at hw
            obtain ⟨rfl, hw⟩ := hw
            obtain ⟨rfl, rfl⟩ := List.append_eq_nil_iff.1 hw
            obtain ⟨rfl, h2⟩ := List.append_inj' he rfl
            simp at h2
            obtain ⟨rfl, rfl⟩ := h2
            rw [blank_append] at hbl
            refine h4 x [.mk l1 (.text t)] [.mk l2 (.text u)] m v r rfl (by rw [hb]; rfl) hc ?_
            intro c hc
            simp at hc
            rcases hc with rfl | rfl
            · exact ⟨_, rfl, hbl.1⟩
            · exact ⟨_, rfl, hbl.2⟩
  have e4 := joins_text (x := x) (l := l) (l' := l1) (u := u) ht
  rw [C108, C108, e1, e4, e3, C108 x]
  have e5 : Survives (.mk l2 (.text u) :: y) ↔ Survives [.mk l2 (.text u)] ∧ Survives y := by
    rw [show (.mk l2 (.text u) :: y : List Chunk) = [.mk l2 (.text u)] ++ y from rfl, C108]
    exact ⟨fun h => ⟨h.1, h.2.1⟩, fun h => ⟨h.1, h.2, e2⟩⟩
  rw [e5]
  grind

/-- Neat sequences one after the other, the texts where they meet becoming one. -/
theorem survives_merge {x y z : List Chunk} (hx : NeatSeq x) (hy : NeatSeq y) (hz : NeatSeq z) (he : atoms z = atoms x ++ atoms y) :
    Survives z ↔ Survives x ∧ Survives y ∧ Touches x y := by
  have same : ∀ {d d' : List Chunk}, NeatSeq d → NeatSeq d' → atoms d = atoms d' → (Survives d ↔ Survives d') := fun h1 h2 h3 =>
    ⟨fun h => survives_same h (neat_same h1 h2 h3), fun h => survives_same h (neat_same h2 h1 h3.symm)⟩
  by_cases hj : ∃ i l t, x = i ++ [.mk l (.text t)] ∧ StartsText y
  · obtain ⟨i, l, t, rfl, hs⟩ := hj
    obtain ⟨l', u, r, rfl⟩ := startsText_iff.1 hs
    have hu : u ≠ [] := hy.1
    have ht : t ≠ [] := (neat_append hx).2.1
    have hn : NeatSeq (i ++ [.mk l (.text (t ++ u))] ++ r) := by
      refine neat_join (neat_join (neat_append hx).1 ⟨by simp [ChunkVariant.Neat, ht], trivial, fun _ h => h⟩ ?_) hy.2.1 ?_
      · rintro j m w rfl _
        rw [List.append_assoc] at hx
        exact (neat_append hx).2.2.2 ⟨w, rfl⟩ trivial
      · intro j m w hj; exact hy.2.2 ⟨u, rfl⟩
    rw [same hz hn (by rw [he]; simp [atoms_append, atoms, ChunkVariant.atoms]), survives_texts hx hy]
  · have hn : NeatSeq (x ++ y) := neat_join hx hy fun i l t h1 h2 => hj ⟨i, l, t, h1, h2⟩
    rw [same hz hn (by rw [he, atoms_append]), C108, joins_touches hn]

end LatexAst.Ast2
