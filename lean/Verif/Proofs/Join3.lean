import Verif.Proofs.Join2
import Verif.Props.Calm

/-!
# Joining stage-3 sequences
-/

namespace LatexAst.Ast3
open Spec

/-! ### texts and breaks -/

/-- `Seam`, for variants. -/
def SeamV (x y : List ChunkVariant) : Prop :=
  ∀ i v v' r, x = i ++ [v] → y = v' :: r →
    (∀ t t', v = .text t → v' ≠ .text t') ∧ (∀ s s', v = .paragraphBreak s → v' ≠ .paragraphBreak s') ∧
    (∀ t s, v = .text t → v' = .paragraphBreak s → ¬ EndsInNewline t) ∧ (∀ s t, v = .paragraphBreak s → v' = .text t → StartsDark t)

theorem seamV_nil {y} : SeamV [] y := by
  intro i v v' r h; simp at h

theorem seamV_nil_right {x} : SeamV x [] := by
  intro i v v' r _ h; cases h

theorem seamV_cons {c d x y} : SeamV (c :: d :: x) y ↔ SeamV (d :: x) y := by
  constructor
  · intro h i v v' r h1 h2; exact h (c :: i) v v' r (by rw [h1]; rfl) h2
  · intro h i v v' r h1 h2
    cases i with
    | nil => simp at h1
    | cons e i =>
      simp only [List.cons_append, List.cons.injEq] at h1
      exact h i v v' r h1.2 h2

theorem seamV_single {c y} : SeamV [c] y ↔ ∀ v' r, y = v' :: r →
    (∀ t t', c = .text t → v' ≠ .text t') ∧ (∀ s s', c = .paragraphBreak s → v' ≠ .paragraphBreak s') ∧
    (∀ t s, c = .text t → v' = .paragraphBreak s → ¬ EndsInNewline t) ∧ (∀ s t, c = .paragraphBreak s → v' = .text t → StartsDark t) := by
  constructor
  · intro h v' r h2; exact h [] c v' r rfl h2
  · intro h i v v' r h1 h2
    cases i with
    | nil => simp at h1; subst h1; exact h v' r h2
    | cons e i => simp at h1

theorem cut_true_head {r} (h : Cut true r) : ∀ v' r', r = v' :: r' → ∃ t, v' = .text t ∧ StartsDark t := by
  intro v' r' he
  cases h with
  | nil => cases he
  | last _ h => cases he; exact ⟨_, rfl, h rfl⟩
  | text _ h => cases he; exact ⟨_, rfl, h rfl⟩

theorem cut_false {b r} (h : Cut b r) : Cut false r := by
  cases h with
  | nil => exact .nil
  | last h1 _ => exact .last h1 (by simp)
  | text h1 _ h3 h4 h5 => exact .text h1 (by simp) h3 h4 h5
  | «break» h1 h2 => exact .break h1 h2

theorem cut_true {y} (h : Cut false y) (hd : ∀ v' r', y = v' :: r' → ∃ t, v' = .text t ∧ StartsDark t) : Cut true y := by
  cases h with
  | nil => exact .nil
  | last h1 _ => obtain ⟨_, he, h⟩ := hd _ _ rfl; cases he; exact .last h1 fun _ => h
  | text h1 _ h3 h4 h5 => obtain ⟨_, he, h⟩ := hd _ _ rfl; cases he; exact .text h1 (fun _ => h) h3 h4 h5
  | «break» h1 h2 => obtain ⟨_, he, h⟩ := hd _ _ rfl; cases he

theorem cut_after_break {s y} (hc : Cut false y) (hs : SeamV [.paragraphBreak s] y) : Cut true y := by
  refine cut_true hc fun v' r' he => ?_
  subst he
  obtain ⟨_, h2, _, h4⟩ := seamV_single.1 hs _ _ rfl
  rcases cut_textLike hc v' (.head _) with ⟨t, rfl⟩ | ⟨s', rfl⟩
  · exact ⟨t, rfl, h4 s t rfl rfl⟩
  · exact absurd rfl (h2 s s' rfl)

theorem cut_join {b x y} (hx : Cut b x) (hy : Cut false y) (hs : SeamV x y) (hb : x = [] → b = true → ∀ v' r', y = v' :: r' → ∃ t, v' = .text t ∧ StartsDark t) :
    Cut b (x ++ y) := by
  induction hx with
  | @nil b =>
    cases b with
    | false => exact hy
    | true => exact cut_true hy (hb rfl rfl)
  | last h1 h2 =>
    cases y with
    | nil => exact .last h1 h2
    | cons v' r =>
      obtain ⟨g1, _, g3, _⟩ := seamV_single.1 hs _ _ rfl
      cases hy with
      | last => exact absurd rfl (g1 _ _ rfl)
      | text => exact absurd rfl (g1 _ _ rfl)
      | «break» h3 h4 => exact .text h1 h2 (g3 _ _ rfl rfl) h3 h4
  | @text b t s r h1 h2 h3 h4 h5 ih =>
    refine .text h1 h2 h3 h4 (ih ?_ ?_)
    · cases r with
      | nil => exact seamV_nil
      | cons c r => exact seamV_cons.1 (seamV_cons.1 hs)
    · rintro rfl _
      exact cut_true_head (cut_after_break hy (seamV_cons.1 hs))
  | @«break» s r h1 h2 ih =>
    refine .break h1 (ih ?_ ?_)
    · cases r with
      | nil => exact seamV_nil
      | cons c r => exact seamV_cons.1 hs
    · rintro rfl _
      exact cut_true_head (cut_after_break hy hs)

theorem seam_after_break {s r} (h : Cut true r) : SeamV [.paragraphBreak s] r := by
  rw [seamV_single]
  intro v' r' he
  obtain ⟨t, rfl, ht⟩ := cut_true_head h _ _ he
  refine ⟨by simp, by simp, by simp, ?_⟩
  intro s t' _ h
  cases h; exact ht

theorem cut_split {b z} (h : Cut b z) : ∀ {x y}, z = x ++ y → Cut b x ∧ Cut false y ∧ SeamV x y := by
  induction h with
  | nil =>
    intro x y he
    obtain ⟨rfl, rfl⟩ := List.append_eq_nil_iff.1 he.symm
    exact ⟨.nil, .nil, seamV_nil⟩
  | @last b t h1 h2 =>
    intro x y he
    cases x with
    | nil => subst he; exact ⟨.nil, .last h1 (by simp), seamV_nil⟩
    | cons c x =>
      simp only [List.cons_append, List.cons.injEq] at he
      obtain ⟨rfl, he⟩ := he
      obtain ⟨rfl, rfl⟩ := List.append_eq_nil_iff.1 he.symm
      exact ⟨.last h1 h2, .nil, seamV_nil_right⟩
  | @text b t s r h1 h2 h3 h4 h5 ih =>
    intro x y he
    match x, he with
    | [], he => subst he; exact ⟨.nil, .text h1 (by simp) h3 h4 h5, seamV_nil⟩
    | [c], he =>
      simp only [List.cons_append, List.nil_append, List.cons.injEq] at he
      obtain ⟨rfl, rfl⟩ := he
      refine ⟨.last h1 h2, .break h4 h5, ?_⟩
      rw [seamV_single]
      intro v' r' he
      cases he
      refine ⟨by simp, by simp, ?_, by simp⟩
      intro t' s' h _; cases h; exact h3
    | c :: d :: x, he =>
      simp only [List.cons_append, List.cons.injEq] at he
      obtain ⟨rfl, rfl, rfl⟩ := he
      obtain ⟨g1, g2, g3⟩ := ih rfl
      refine ⟨.text h1 h2 h3 h4 g1, g2, ?_⟩
      rw [seamV_cons]
      cases x with
      | nil => exact seam_after_break h5
      | cons c x => rw [seamV_cons]; exact g3
  | @«break» s r h1 h2 ih =>
    intro x y he
    cases x with
    | nil => subst he; exact ⟨.nil, .break h1 h2, seamV_nil⟩
    | cons c x =>
      simp only [List.cons_append, List.cons.injEq] at he
      obtain ⟨rfl, rfl⟩ := he
      obtain ⟨g1, g2, g3⟩ := ih rfl
      refine ⟨.break h1 g1, g2, ?_⟩
      cases x with
      | nil => exact seam_after_break h2
      | cons c x => rw [seamV_cons]; exact g3

theorem seam_variants {a b : List Chunk} : Seam a b ↔ SeamV (a.map Chunk.variant) (b.map Chunk.variant) := by
  constructor
  · intro h i v v' r h1 h2
    obtain ⟨a1, a2, rfl, ha1, ha2⟩ := List.map_eq_append_iff.1 h1
    obtain ⟨⟨l, w⟩, rfl, ha3⟩ := List.map_eq_singleton_iff.1 ha2
    obtain ⟨⟨l', w'⟩, b', rfl, hb1, hb2⟩ := List.map_eq_cons_iff.1 h2
    simp only [Chunk.variant] at ha3 hb1
    subst ha3 hb1
    exact h a1 l _ l' _ b' rfl rfl
  · rintro h i l v l' v' r rfl rfl
    exact h (i.map Chunk.variant) v v' (r.map Chunk.variant) (by simp [Chunk.variant]) (by simp [Chunk.variant])

/-! ### sequences -/

theorem seam_nil {b} : Seam [] b := by
  intro i l v l' v' r h; simp at h

theorem seam_cons {c d a b} : Seam (c :: d :: a) b ↔ Seam (d :: a) b := by
  rw [seam_variants, seam_variants, List.map_cons, List.map_cons, seamV_cons]

theorem seam_node {l v b} (h : ¬ TextLike v) : Seam [.mk l v] b := by
  rw [seam_variants, List.map_cons, List.map_nil, seamV_single]
  intro v' r _
  refine ⟨?_, ?_, ?_, ?_⟩
  · rintro t t' rfl; exact absurd (.inl ⟨t, rfl⟩) h
  · rintro t t' rfl; exact absurd (.inr ⟨t, rfl⟩) h
  · rintro t t' rfl; exact absurd (.inl ⟨t, rfl⟩) h
  · rintro t t' rfl; exact absurd (.inr ⟨t, rfl⟩) h

theorem seam_begins {a b} (h : ¬ BeginsWithText b) : Seam a b := by
  rintro i l v l' v' r rfl rfl
  refine ⟨?_, ?_, ?_, ?_⟩
  · rintro t t' rfl rfl; exact h ⟨l', _, r, rfl, .inl ⟨t', rfl⟩⟩
  · rintro t t' rfl rfl; exact h ⟨l', _, r, rfl, .inr ⟨t', rfl⟩⟩
  · rintro t t' rfl rfl; exact absurd ⟨l', _, r, rfl, .inr ⟨t', rfl⟩⟩ h
  · rintro t t' rfl rfl; exact absurd ⟨l', _, r, rfl, .inl ⟨t', rfl⟩⟩ h

theorem seam_append {p a b} (hne : a ≠ []) : Seam (p ++ a) b ↔ Seam a b := by
  induction p with
  | nil => rfl
  | cons c p ih =>
    obtain ⟨d, q, hd⟩ : ∃ d q, p ++ a = d :: q := by
      cases p with
      | nil => cases a with
        | nil => exact absurd rfl hne
        | cons d q => exact ⟨d, q, rfl⟩
      | cons d q => exact ⟨d, q ++ a, rfl⟩
    rw [List.cons_append, hd, seam_cons, ← hd, ih]

theorem begins_append {a b} (hne : a ≠ []) : BeginsWithText (a ++ b) ↔ BeginsWithText a := by
  cases a with
  | nil => exact absurd rfl hne
  | cons c a =>
    constructor
    · rintro ⟨l, v, r, he, hv⟩; cases he; exact ⟨l, v, a, rfl, hv⟩
    · rintro ⟨l, v, r, he, hv⟩; cases he; exact ⟨l, v, a ++ b, rfl, hv⟩

theorem Recognisable.leading {b} (h : Recognisable b) : ∃ p r, b = p ++ r ∧ Cut false (p.map Chunk.variant) ∧ '$' ∉ displayChunks p ∧ ¬ BeginsWithText r ∧ Recognisable r := by
  cases h with
  | nil => exact ⟨[], [], rfl, .nil, by simp [displayChunks], (by rintro ⟨_, _, _, h, _⟩; cases h), .nil⟩
  | run h1 h2 h3 h4 => exact ⟨_, _, rfl, h1, h2, h3, h4⟩
  | command h1 h2 h3 => exact ⟨[], _, rfl, .nil, by simp [displayChunks], not_begins (by simp [TextLike]), .command h1 h2 h3⟩
  | scope h1 h2 => exact ⟨[], _, rfl, .nil, by simp [displayChunks], not_begins (by simp [TextLike]), .scope h1 h2⟩
  | environment h1 h2 h3 => exact ⟨[], _, rfl, .nil, by simp [displayChunks], not_begins (by simp [TextLike]), .environment h1 h2 h3⟩
  | brackets h1 h2 h3 => exact ⟨[], _, rfl, .nil, by simp [displayChunks], not_begins (by simp [TextLike]), .brackets h1 h2 h3⟩
  | dollars h1 h2 h3 h4 h5 h6 => exact ⟨[], _, rfl, .nil, by simp [displayChunks], not_begins (by simp [TextLike]), .dollars h1 h2 h3 h4 h5 h6⟩

theorem displayChunks3_append (a b : List Chunk) : displayChunks (a ++ b) = displayChunks a ++ displayChunks b := by
  induction a with
  | nil => rfl
  | cons c a ih => simp [displayChunks, ih]

theorem Recognisable.join {a} (ha : Recognisable a) {b} (hb : Recognisable b) (hs : Seam a b) : Recognisable (a ++ b) := by
  induction ha with
  | nil => exact hb
  | @run pieces rest h1 h2 h3 _ ih =>
    by_cases hr : rest = []
    · subst hr
      rw [List.append_nil] at hs ⊢
      obtain ⟨p, r, rfl, g1, g2, g3, g4⟩ := hb.leading
      rw [← List.append_assoc]
      refine .run ?_ ?_ g3 g4
      · rw [List.map_append]
        refine cut_join h1 g1 ?_ (by simp)
        intro i v v' r' e1 e2
        exact seam_variants.1 hs i v v' (r' ++ r.map Chunk.variant) e1 (by rw [List.map_append, e2]; rfl)
      · rw [displayChunks3_append, List.mem_append, not_or]
        exact ⟨h2, g2⟩
    · rw [List.append_assoc]
      exact .run h1 h2 (fun h => h3 ((begins_append hr).1 h)) (ih ((seam_append hr).1 hs))
  | @command l label args rest h1 h2 _ _ ih =>
    exact .command h1 h2 (ih (by cases rest with | nil => exact seam_nil | cons d r => exact seam_cons.1 hs))
  | @scope l inner sv rest h1 _ _ ih => exact .scope h1 (ih (by cases rest with | nil => exact seam_nil | cons d r => exact seam_cons.1 hs))
  | @environment l label args content pb pe rest h1 h2 _ _ _ ih =>
    exact .environment h1 h2 (ih (by cases rest with | nil => exact seam_nil | cons d r => exact seam_cons.1 hs))
  | @brackets l k content rest h1 h2 _ _ ih => exact .brackets h1 h2 (ih (by cases rest with | nil => exact seam_nil | cons d r => exact seam_cons.1 hs))
  | @dollars l k content rest ms t h1 h2 h3 h4 h5 _ _ ih =>
    exact .dollars h1 h2 h3 h4 h5 (ih (by cases rest with | nil => exact seam_nil | cons d r => exact seam_cons.1 hs))

theorem seam_after_node {l v a b} (hv : ¬ TextLike v) (h : Seam a b) : Seam (.mk l v :: a) b := by
  cases a with
  | nil => exact seam_node hv
  | cons d a => exact seam_cons.2 h

theorem Recognisable.split {z} (h : Recognisable z) : ∀ {a b}, z = a ++ b → Recognisable a ∧ Recognisable b ∧ Seam a b := by
  induction h with
  | nil =>
    intro a b he
    obtain ⟨rfl, rfl⟩ := List.append_eq_nil_iff.1 he.symm
    exact ⟨.nil, .nil, seam_nil⟩
  | @run pieces rest h1 h2 h3 h4 ih =>
    intro a b he
    rcases List.append_eq_append_iff.1 he with ⟨a', rfl, h6⟩ | ⟨p', rfl, h6⟩
    · obtain ⟨g1, g2, g3⟩ := ih h6
      by_cases ha : a' = []
      · subst ha
        rw [List.nil_append] at h6
        subst h6
        refine ⟨.run h1 h2 (by rintro ⟨_, _, _, h, _⟩; cases h) .nil, g2, seam_begins h3⟩
      · rw [h6] at h3
        exact ⟨.run h1 h2 (fun h => h3 ((begins_append ha).2 h)) g1, g2, (seam_append ha).2 g3⟩
    · subst h6
      rw [List.map_append] at h1
      rw [displayChunks3_append, List.mem_append, not_or] at h2
      obtain ⟨g1, g2, g3⟩ := cut_split h1 rfl
      refine ⟨?_, .run g2 h2.2 h3 h4, ?_⟩
      · have := Recognisable.run (rest := []) g1 h2.1 (by rintro ⟨_, _, _, h, _⟩; cases h) .nil
        rwa [List.append_nil] at this
      · by_cases hp : p' = []
        · subst hp; exact seam_begins h3
        · rw [seam_variants]
          intro i v v' r e1 e2
          cases p' with
          | nil => exact absurd rfl hp
          | cons c p' =>
            simp only [List.cons_append, List.map_cons, List.cons.injEq] at e2
            exact g3 i v v' (p'.map Chunk.variant) e1 (by simp [e2.1])
  | @command l label args rest h1 h2 h3 ih1 ih =>
    intro a b he
    cases a with
    | nil => subst he; exact ⟨.nil, .command h1 h2 h3, seam_nil⟩
    | cons c a =>
      simp only [List.cons_append, List.cons.injEq] at he
      obtain ⟨rfl, he⟩ := he
      obtain ⟨g1, g2, g3⟩ := ih he
      exact ⟨.command h1 h2 g1, g2, seam_after_node (by simp [TextLike]) g3⟩
  | @scope l inner sv rest h1 h2 ih1 ih =>
    intro a b he
    cases a with
    | nil => subst he; exact ⟨.nil, .scope h1 h2, seam_nil⟩
    | cons c a =>
      simp only [List.cons_append, List.cons.injEq] at he
      obtain ⟨rfl, he⟩ := he
      obtain ⟨g1, g2, g3⟩ := ih he
      exact ⟨.scope h1 g1, g2, seam_after_node (by simp [TextLike]) g3⟩
  | @environment l label args content pb pe rest h1 h2 h3 ih1 ih2 ih =>
    intro a b he
    cases a with
    | nil => subst he; exact ⟨.nil, .environment h1 h2 h3, seam_nil⟩
    | cons c a =>
      simp only [List.cons_append, List.cons.injEq] at he
      obtain ⟨rfl, he⟩ := he
      obtain ⟨g1, g2, g3⟩ := ih he
      exact ⟨.environment h1 h2 g1, g2, seam_after_node (by simp [TextLike]) g3⟩
  | @brackets l k content rest h1 h2 h3 ih1 ih =>
    intro a b he
    cases a with
    | nil => subst he; exact ⟨.nil, .brackets h1 h2 h3, seam_nil⟩
    | cons c a =>
      simp only [List.cons_append, List.cons.injEq] at he
      obtain ⟨rfl, he⟩ := he
      obtain ⟨g1, g2, g3⟩ := ih he
      exact ⟨.brackets h1 h2 g1, g2, seam_after_node (by simp [TextLike]) g3⟩
  | @dollars l k content rest ms t h1 h2 h3 h4 h5 h6 ih1 ih =>
    intro a b he
    cases a with
    | nil => subst he; exact ⟨.nil, .dollars h1 h2 h3 h4 h5 h6, seam_nil⟩
    | cons c a =>
      simp only [List.cons_append, List.cons.injEq] at he
      obtain ⟨rfl, he⟩ := he
      obtain ⟨g1, g2, g3⟩ := ih he
      exact ⟨.dollars h1 h2 h3 h4 h5 g1, g2, seam_after_node (by simp [TextLike]) g3⟩

theorem recognisable_append {a b} : Recognisable (a ++ b) ↔ Recognisable a ∧ Recognisable b ∧ Seam a b :=
  ⟨fun h => h.split rfl, fun h => h.1.join h.2.1 h.2.2⟩

end LatexAst.Ast3
