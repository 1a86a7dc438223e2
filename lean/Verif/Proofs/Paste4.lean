import Verif.Proofs.Paste3

/-!
# What holds of all texts and brackets of a document, stages 1 and 2
-/

namespace LatexAst.Ast1
open Spec

variable (T : Str → Prop) (S : ScopeVariant → Prop)

mutual
/-- `T` holds of all texts and `S` of the kinds of all scopes and arguments. -/
def HoldsV : ChunkVariant → Prop
  | .text t => T t
  | .scope (.mk cs sv) => S sv ∧ Holds cs
  | .command (.mk _ args) => HoldsArgs args
/-- The same for sequences. -/
def Holds : List Chunk → Prop
  | [] => True
  | .mk _ v :: cs => HoldsV v ∧ Holds cs
/-- The same for arguments. -/
def HoldsArgs : List (Str × Scope) → Prop
  | [] => True
  | (_, .mk cs sv) :: r => S sv ∧ Holds cs ∧ HoldsArgs r
end

theorem holds_mem {cs : List Chunk} : Holds T S cs ↔ ∀ l v, .mk l v ∈ cs → HoldsV T S v := by
  induction cs with
  | nil => simp [Holds]
  | cons c cs ih =>
    obtain ⟨l, v⟩ := c
    simp only [Holds, ih, List.mem_cons]
    constructor
    · rintro ⟨h1, h2⟩ l' v' (h | h)
      · cases h; exact h1
      · exact h2 _ _ h
    · intro h; exact ⟨h l v (.inl rfl), fun l' v' h' => h l' v' (.inr h')⟩

theorem holdsArgs_mem {args : List (Str × Scope)} : HoldsArgs T S args ↔ ∀ p cs sv, (p, Scope.mk cs sv) ∈ args → S sv ∧ Holds T S cs := by
  induction args with
  | nil => simp [HoldsArgs]
  | cons c cs ih =>
    obtain ⟨l, x, v⟩ := c
    simp only [HoldsArgs, ih, List.mem_cons]
    constructor
    · rintro ⟨h1, h2, h3⟩ l' v' sv (h | h)
      · cases h; exact ⟨h1, h2⟩
      · exact h3 _ _ _ h
    · intro h; exact ⟨(h _ _ _ (.inl rfl)).1, (h _ _ _ (.inl rfl)).2, fun l' v' sv h' => h l' v' sv (.inr h')⟩

theorem holds_within {d v} (h : Within d v) : Holds T S d → HoldsV T S v := by
  induction h with
  | here hm => intro hd; exact (holds_mem T S).1 hd _ _ hm
  | scope hm _ ih => intro hd; have := (holds_mem T S).1 hd _ _ hm; simp only [HoldsV] at this; exact ih this.2
  | arg hm ha _ ih =>
    intro hd; have := (holds_mem T S).1 hd _ _ hm; simp only [HoldsV] at this
    exact ih ((holdsArgs_mem T S).1 this _ _ _ ha).2

/-- In terms of what occurs. -/
def Everywhere (d : List Chunk) : Prop :=
  (∀ t, Within d (.text t) → T t) ∧ (∀ inner sv, Within d (.scope (.mk inner sv)) → S sv) ∧
  ∀ label args prec inner sv, Within d (.command (.mk label args)) → (prec, Scope.mk inner sv) ∈ args → S sv

mutual
theorem everywhereV : ∀ (v : ChunkVariant), (∀ l, Everywhere T S [.mk l v]) → HoldsV T S v
  | .text t, h => by simp only [HoldsV]; exact (h 1).1 t (.here (.head _))
  | .scope (.mk cs sv), h => by
    simp only [HoldsV]
    have := h 1
    exact ⟨this.2.1 cs sv (.here (.head _)), everywhere cs ⟨fun t hw => this.1 t (.scope (.head _) hw), fun i s hw => this.2.1 i s (.scope (.head _) hw),
      fun la a p i s hw => this.2.2 la a p i s (.scope (.head _) hw)⟩⟩
  | .command (.mk label args), h => by
    simp only [HoldsV]
    have := h 1
    exact everywhereArgs args fun p cs sv hm => ⟨this.2.2 label args p cs sv (.here (.head _)) hm, fun t hw => this.1 t (.arg (.head _) hm hw),
      fun i s hw => this.2.1 i s (.arg (.head _) hm hw), fun la a p' i s hw => this.2.2 la a p' i s (.arg (.head _) hm hw)⟩
theorem everywhere : ∀ (cs : List Chunk), Everywhere T S cs → Holds T S cs
  | [], _ => by simp [Holds]
  | .mk l v :: cs, h => by
    simp only [Holds]
    have hw : ∀ {l' x}, Within [.mk l' v] x → Within (.mk l v :: cs) x := by
      intro l' x hx
      cases hx with
      | here hm => rw [List.mem_singleton] at hm; cases hm; exact .here (.head _)
      | scope hm hx => rw [List.mem_singleton] at hm; cases hm; exact .scope (.head _) hx
      | arg hm ha hx => rw [List.mem_singleton] at hm; cases hm; exact .arg (.head _) ha hx
    have hw2 : ∀ {x}, Within cs x → Within (.mk l v :: cs) x := by
      intro x hx
      cases hx with
      | here hm => exact .here (.tail _ hm)
      | scope hm hx => exact .scope (.tail _ hm) hx
      | arg hm ha hx => exact .arg (.tail _ hm) ha hx
    exact ⟨everywhereV v fun l' => ⟨fun t hx => h.1 t (hw hx), fun i s hx => h.2.1 i s (hw hx), fun la a p i s hx => h.2.2 la a p i s (hw hx)⟩,
      everywhere cs ⟨fun t hx => h.1 t (hw2 hx), fun i s hx => h.2.1 i s (hw2 hx), fun la a p i s hx => h.2.2 la a p i s (hw2 hx)⟩⟩
theorem everywhereArgs : ∀ (args : List (Str × Scope)), (∀ p cs sv, (p, Scope.mk cs sv) ∈ args → S sv ∧ Everywhere T S cs) → HoldsArgs T S args
  | [], _ => by simp [HoldsArgs]
  | (p, .mk cs sv) :: r, h => by
    simp only [HoldsArgs]
    exact ⟨(h p cs sv (.head _)).1, everywhere cs (h p cs sv (.head _)).2, everywhereArgs r fun p cs sv hm => h p cs sv (.tail _ hm)⟩
end

theorem holds_everywhere {d : List Chunk} : Holds T S d ↔ Everywhere T S d := by
  constructor
  · intro h
    refine ⟨fun t hw => ?_, fun i sv hw => ?_, fun la a p i sv hw hm => ?_⟩
    · have := holds_within T S hw h; simpa [HoldsV] using this
    · have := holds_within T S hw h; simp only [HoldsV] at this; exact this.1
    · have := holds_within T S hw h; simp only [HoldsV] at this; exact ((holdsArgs_mem T S).1 this _ _ _ hm).1
  · exact everywhere T S d

theorem holds_noCloser {k d} : Holds (fun t => k.closing ∉ t) (fun _ => True) d ↔ NoCloserOf k d := by
  rw [holds_everywhere]
  exact ⟨fun h => h.1, fun h => ⟨h, (fun _ _ _ => trivial), fun _ _ _ _ _ _ _ => trivial⟩⟩

theorem holds_noBracket {k d} : Holds (fun t => k.closing ∉ t) (fun sv => sv ≠ k) d ↔ NoGroupOf k d ∧ NoCloserOf k d := by
  rw [holds_everywhere]
  exact ⟨fun h => ⟨h.2, h.1⟩, fun h => ⟨h.2, h.1⟩⟩

/-- What makes a node of a good document good. -/
def GoodV (v : ChunkVariant) : Prop :=
  NodeCanon v ∧ (∀ inner sv, v = .scope (.mk inner sv) → Good inner) ∧
    ∀ label args prec inner sv, v = .command (.mk label args) → (prec, Scope.mk inner sv) ∈ args → Good inner

theorem good_variants {d : List Chunk} (h : Good d) : ∀ v ∈ d.map Chunk.variant, GoodV v := by
  intro v hv
  obtain ⟨⟨l, v'⟩, hm, rfl⟩ := List.mem_map.1 hv
  obtain ⟨h1, h2, h3⟩ := good_iff.1 h
  refine ⟨h1.2 _ _ hm, fun inner sv he => ?_, fun label args prec inner sv he ha => ?_⟩
  · simp only [Chunk.variant] at he; subst he; exact h2 _ _ _ hm
  · simp only [Chunk.variant] at he; subst he; exact h3 _ _ _ _ _ _ hm ha

theorem holds_variants {d : List Chunk} : Holds T S d ↔ ∀ v ∈ d.map Chunk.variant, HoldsV T S v := by
  rw [holds_mem]
  constructor
  · intro h v hv
    obtain ⟨⟨l, v'⟩, hm, rfl⟩ := List.mem_map.1 hv
    exact h l v' hm
  · intro h l v hm; exact h v (List.mem_map.2 ⟨_, hm, rfl⟩)

end LatexAst.Ast1

namespace LatexAst.Ast2
open Spec

variable (T : Str → Prop) (S : ScopeVariant → Prop) (L : Str → Prop)

mutual
/-- `T` holds of all texts, `S` of the kinds of all scopes and arguments, `L` of all names of environments. -/
def HoldsV : ChunkVariant → Prop
  | .text t => T t
  | .scope (.mk cs sv) => S sv ∧ Holds cs
  | .command (.mk _ args) => HoldsArgs args
  | .environment (.mk label args content _ _) => L label ∧ HoldsArgs args ∧ Holds content
/-- The same for sequences. -/
def Holds : List Chunk → Prop
  | [] => True
  | .mk _ v :: cs => HoldsV v ∧ Holds cs
/-- The same for arguments. -/
def HoldsArgs : List (Str × Scope) → Prop
  | [] => True
  | (_, .mk cs sv) :: r => S sv ∧ Holds cs ∧ HoldsArgs r
end

theorem holds_mem {cs : List Chunk} : Holds T S L cs ↔ ∀ l v, .mk l v ∈ cs → HoldsV T S L v := by
  induction cs with
  | nil => simp [Holds]
  | cons c cs ih =>
    obtain ⟨l, v⟩ := c
    simp only [Holds, ih, List.mem_cons]
    constructor
    · rintro ⟨h1, h2⟩ l' v' (h | h)
      · cases h; exact h1
      · exact h2 _ _ h
    · intro h; exact ⟨h l v (.inl rfl), fun l' v' h' => h l' v' (.inr h')⟩

theorem holdsArgs_mem {args : List (Str × Scope)} : HoldsArgs T S L args ↔ ∀ p cs sv, (p, Scope.mk cs sv) ∈ args → S sv ∧ Holds T S L cs := by
  induction args with
  | nil => simp [HoldsArgs]
  | cons c cs ih =>
    obtain ⟨l, x, v⟩ := c
    simp only [HoldsArgs, ih, List.mem_cons]
    constructor
    · rintro ⟨h1, h2, h3⟩ l' v' sv (h | h)
      · cases h; exact ⟨h1, h2⟩
      · exact h3 _ _ _ h
    · intro h; exact ⟨(h _ _ _ (.inl rfl)).1, (h _ _ _ (.inl rfl)).2, fun l' v' sv h' => h l' v' sv (.inr h')⟩

theorem holds_within {d v} (h : Within d v) : Holds T S L d → HoldsV T S L v := by
  induction h with
  | here hm => intro hd; exact (holds_mem T S L).1 hd _ _ hm
  | scope hm _ ih => intro hd; have := (holds_mem T S L).1 hd _ _ hm; simp only [HoldsV] at this; exact ih this.2
  | arg hm ha _ ih =>
    intro hd; have := (holds_mem T S L).1 hd _ _ hm; simp only [HoldsV] at this
    exact ih ((holdsArgs_mem T S L).1 this _ _ _ ha).2
  | envArg hm ha _ ih =>
    intro hd; have := (holds_mem T S L).1 hd _ _ hm; simp only [HoldsV] at this
    exact ih ((holdsArgs_mem T S L).1 this.2.1 _ _ _ ha).2
  | envContent hm _ ih =>
    intro hd; have := (holds_mem T S L).1 hd _ _ hm; simp only [HoldsV] at this
    exact ih this.2.2

/-- What holds of a node itself. -/
def OwnV : ChunkVariant → Prop
  | .text t => T t
  | .scope (.mk _ sv) => S sv
  | .command (.mk _ args) => ∀ p cs sv, (p, Scope.mk cs sv) ∈ args → S sv
  | .environment (.mk label args _ _ _) => L label ∧ ∀ p cs sv, (p, Scope.mk cs sv) ∈ args → S sv

mutual
theorem everywhereV : ∀ (v : ChunkVariant), (∀ l x, Within [.mk l v] x → OwnV T S L x) → HoldsV T S L v
  | .text t, h => by simp only [HoldsV]; exact h 1 (.text t) (.here (.head _))
  | .scope (.mk cs sv), h => by
    simp only [HoldsV]
    exact ⟨h 1 (.scope (.mk cs sv)) (.here (.head _)), everywhere cs fun x hx => h 1 x (.scope (.head _) hx)⟩
  | .command (.mk label args), h => by
    simp only [HoldsV]
    have := h 1 (.command (.mk label args)) (.here (.head _))
    exact everywhereArgs args fun p cs sv hm => ⟨this p cs sv hm, fun x hx => h 1 x (.arg (.head _) hm hx)⟩
  | .environment (.mk label args content pb pe), h => by
    simp only [HoldsV]
    have := h 1 (.environment (.mk label args content pb pe)) (.here (.head _))
    exact ⟨this.1, everywhereArgs args fun p cs sv hm => ⟨this.2 p cs sv hm, fun x hx => h 1 x (.envArg (.head _) hm hx)⟩,
      everywhere content fun x hx => h 1 x (.envContent (.head _) hx)⟩
theorem everywhere : ∀ (cs : List Chunk), (∀ x, Within cs x → OwnV T S L x) → Holds T S L cs
  | [], _ => by simp [Holds]
  | .mk l v :: cs, h => by
    simp only [Holds]
    refine ⟨everywhereV v fun l' x hx => h x ?_, everywhere cs fun x hx => h x ?_⟩
    · cases hx with
      | here hm => rw [List.mem_singleton] at hm; cases hm; exact .here (.head _)
      | scope hm hx => rw [List.mem_singleton] at hm; cases hm; exact .scope (.head _) hx
      | arg hm ha hx => rw [List.mem_singleton] at hm; cases hm; exact .arg (.head _) ha hx
      | envArg hm ha hx => rw [List.mem_singleton] at hm; cases hm; exact .envArg (.head _) ha hx
      | envContent hm hx => rw [List.mem_singleton] at hm; cases hm; exact .envContent (.head _) hx
    · cases hx with
      | here hm => exact .here (.tail _ hm)
      | scope hm hx => exact .scope (.tail _ hm) hx
      | arg hm ha hx => exact .arg (.tail _ hm) ha hx
      | envArg hm ha hx => exact .envArg (.tail _ hm) ha hx
      | envContent hm hx => exact .envContent (.tail _ hm) hx
theorem everywhereArgs : ∀ (args : List (Str × Scope)), (∀ p cs sv, (p, Scope.mk cs sv) ∈ args → S sv ∧ ∀ x, Within cs x → OwnV T S L x) → HoldsArgs T S L args
  | [], _ => by simp [HoldsArgs]
  | (p, .mk cs sv) :: r, h => by
    simp only [HoldsArgs]
    exact ⟨(h p cs sv (.head _)).1, everywhere cs (h p cs sv (.head _)).2, everywhereArgs r fun p cs sv hm => h p cs sv (.tail _ hm)⟩
end

theorem holdsV_own : ∀ {v : ChunkVariant}, HoldsV T S L v → OwnV T S L v
  | .text t, h => by simp only [HoldsV] at h; exact h
  | .scope (.mk cs sv), h => by simp only [HoldsV] at h; exact h.1
  | .command (.mk label args), h => by
    simp only [HoldsV] at h
    intro p cs sv hm; exact ((holdsArgs_mem T S L).1 h _ _ _ hm).1
  | .environment (.mk label args content pb pe), h => by
    simp only [HoldsV] at h
    exact ⟨h.1, fun p cs sv hm => ((holdsArgs_mem T S L).1 h.2.1 _ _ _ hm).1⟩

theorem holds_everywhere {d : List Chunk} : Holds T S L d ↔ ∀ x, Within d x → OwnV T S L x :=
  ⟨fun h _ hx => holdsV_own T S L (holds_within T S L hx h), everywhere T S L d⟩

/-! ## The same at both stages -/

variable {T S L}

mutual
theorem holdsV_spelt (hL : ∀ lab, Ast1.Good lab → Ast1.NoGroupOf .curly lab → Ast1.NoCloserOf .curly lab → (L (Ast1.displayChunks lab) ↔ S .curly ∧ Ast1.Holds T S lab)) :
    ∀ {v : ChunkVariant} {w}, SpeltV v w → (∀ x ∈ w, Ast1.GoodV x) → (HoldsV T S L v ↔ ∀ x ∈ w, Ast1.HoldsV T S x)
  | .text t, w, h, hg => by simp only [SpeltV] at h; subst h; simp [HoldsV, Ast1.HoldsV]
  | .scope (.mk cs sv), w, h, hg => by
    simp only [SpeltV] at h
    obtain ⟨ds, rfl, h⟩ := h
    have hgi := (hg _ (.head _)).2.1 ds sv rfl
    have := holds_spelt hL h (Ast1.good_variants hgi)
    simp only [HoldsV, List.mem_singleton, forall_eq, Ast1.HoldsV, this, Ast1.holds_variants]
  | .command (.mk label args), w, h, hg => by
    simp only [SpeltV] at h
    obtain ⟨_, _, args', rfl, h⟩ := h
    have := holdsArgs_spelt hL h (fun p ds sv hm => (hg _ (.head _)).2.2 label args' p ds sv rfl hm)
    simp only [HoldsV, List.mem_singleton, forall_eq, Ast1.HoldsV, this]
  | .environment (.mk label args content pb pe), w, h, hg => by
    simp only [SpeltV] at h
    obtain ⟨lab, args', body, rfl, h2, h3, rfl⟩ := h
    have hgb := hg _ (.head _)
    have hg1 := hgb.2.2 _ _ pb lab .curly rfl (.head _)
    have hgc : Ast1.NoGroupOf .curly lab ∧ Ast1.NoCloserOf .curly lab := by
      rcases hgb.1 with ⟨_, hn⟩ | ⟨c, hc, _⟩
      · have := hn pb lab .curly (.head _); exact this.2
      · simp at hc
    have k1 := hL lab hg1 hgc.1 hgc.2
    have k2 := holdsArgs_spelt hL h2 (fun p ds sv hm => hgb.2.2 _ _ p ds sv rfl (.tail _ hm))
    have k3 := holds_spelt hL h3 (fun x hx => hg x (by simp [hx]))
    simp only [HoldsV, k1, k2, k3, List.mem_cons, List.mem_append]
    constructor
    · rintro ⟨⟨m1, m2⟩, m3, m4⟩ x (rfl | hx | rfl | hx)
      · simp only [Ast1.HoldsV, Ast1.HoldsArgs]; exact ⟨m1, m2, m3⟩
      · exact m4 x hx
      · simp only [Ast1.HoldsV, Ast1.HoldsArgs]; exact ⟨m1, m2, trivial⟩
      · cases hx
    · intro h
      have m1 := h _ (.inl rfl)
      simp only [Ast1.HoldsV, Ast1.HoldsArgs] at m1
      exact ⟨⟨m1.1, m1.2.1⟩, m1.2.2, fun x hx => h x (.inr (.inl hx))⟩
theorem holds_spelt (hL : ∀ lab, Ast1.Good lab → Ast1.NoGroupOf .curly lab → Ast1.NoCloserOf .curly lab → (L (Ast1.displayChunks lab) ↔ S .curly ∧ Ast1.Holds T S lab)) :
    ∀ {e : List Chunk} {w}, Spelt e w → (∀ x ∈ w, Ast1.GoodV x) → (Holds T S L e ↔ ∀ x ∈ w, Ast1.HoldsV T S x)
  | [], w, h, hg => by simp only [Spelt] at h; subst h; simp [Holds]
  | .mk l v :: cs, w, h, hg => by
    simp only [Spelt] at h
    obtain ⟨w1, w2, rfl, h1, h2⟩ := h
    have k1 := holdsV_spelt hL h1 (fun x hx => hg x (by simp [hx]))
    have k2 := holds_spelt hL h2 (fun x hx => hg x (by simp [hx]))
    simp only [Holds, k1, k2, List.mem_append]
    constructor
    · rintro ⟨m1, m2⟩ x (hx | hx)
      · exact m1 x hx
      · exact m2 x hx
    · intro h; exact ⟨fun x hx => h x (.inl hx), fun x hx => h x (.inr hx)⟩
theorem holdsArgs_spelt (hL : ∀ lab, Ast1.Good lab → Ast1.NoGroupOf .curly lab → Ast1.NoCloserOf .curly lab → (L (Ast1.displayChunks lab) ↔ S .curly ∧ Ast1.Holds T S lab)) :
    ∀ {args : List (Str × Scope)} {w}, SpeltArgs args w → (∀ p ds sv, (p, Ast1.Scope.mk ds sv) ∈ w → Ast1.Good ds) →
    (HoldsArgs T S L args ↔ Ast1.HoldsArgs T S w)
  | [], w, h, hg => by simp only [SpeltArgs] at h; subst h; simp [HoldsArgs, Ast1.HoldsArgs]
  | (p, .mk cs sv) :: r, w, h, hg => by
    simp only [SpeltArgs] at h
    obtain ⟨ds, r', rfl, h1, h2⟩ := h
    have k1 := holds_spelt hL h1 (Ast1.good_variants (hg p ds sv (.head _)))
    have k2 := holdsArgs_spelt hL h2 (fun p ds sv hm => hg p ds sv (.tail _ hm))
    simp only [HoldsArgs, Ast1.HoldsArgs, k1, k2, Ast1.holds_variants]
end

/-- Closing braces. -/
theorem closers_spelt {e : List Chunk} {d : List Ast1.Chunk} (hs : Spelt e (d.map Ast1.Chunk.variant)) (hg : Ast1.Good d) :
    (∀ t, Within e (.text t) → '}' ∉ t) ↔ Ast1.NoCloserOf .curly d := by
  rw [← Ast1.holds_noCloser, Ast1.holds_variants, ← holds_spelt (L := fun _ => True) ?_ hs (Ast1.good_variants hg), holds_everywhere]
  · constructor
    · intro h x hx
      match x with
      | .text t => exact h t hx
      | .scope (.mk ..) => trivial
      | .command (.mk ..) => intro _ _ _ _; trivial
      | .environment (.mk ..) => exact ⟨trivial, fun _ _ _ _ => trivial⟩
    · intro h t ht; exact h _ ht
  · intro lab _ _ h
    rw [Ast1.holds_noCloser]
    simp [h]

/-- Brackets of one kind. -/
theorem brackets_spelt {k : ScopeVariant} {e : List Chunk} {d : List Ast1.Chunk} (hs : Spelt e (d.map Ast1.Chunk.variant)) (hg : Ast1.Good d) :
    NoBracketOf k e ↔ Ast1.NoGroupOf k d ∧ Ast1.NoCloserOf k d := by
  rw [← Ast1.holds_noBracket, Ast1.holds_variants,
    ← holds_spelt (L := fun label => k ≠ .curly ∧ ∃ lab, Ast1.fromStr label = .ok lab ∧ Ast1.NoGroupOf k lab ∧ Ast1.NoCloserOf k lab) ?_ hs
      (Ast1.good_variants hg), holds_everywhere]
  · constructor
    · rintro ⟨h1, h2, h3, h4⟩ x hx
      match x with
      | .text t => exact h1 t hx
      | .scope (.mk i sv) => exact h2 i sv hx
      | .command (.mk label args) => exact fun p i sv hm => h3 label args p i sv hx hm
      | .environment (.mk label args c pb pe) =>
        obtain ⟨m1, m2, m3⟩ := h4 _ _ _ _ _ hx
        exact ⟨⟨m1, m3⟩, m2⟩
    · intro h
      refine ⟨fun t ht => h _ ht, fun i sv ht => h _ ht, fun la a p i sv ht hm => ?_, fun la a c pb pe ht => ?_⟩
      · have := h _ ht; exact this p i sv hm
      · have := h _ ht; exact ⟨this.1.1, this.2, this.1.2⟩
  · intro lab hl _ _
    have hp := Ast1.printable_parse hl
    simp only [Ast1.holds_noBracket, hp]
    constructor
    · rintro ⟨h1, _, h2, h3, h4⟩
      cases h2
      refine ⟨fun h => h1 h.symm, ?_⟩
      have hr : Ast1.Retexted Replaces (Ast1.renumSeq .none 1 lab) lab :=
        Ast1.retexted_both (R := fun t t' => t' = t) (S := fun t t' => t' = t) (by rintro t t1 t2 rfl rfl; exact Ast1.replaces_refl _) (Ast1.same_renum lab .none 1)
          (Ast1.retexted_refl (R := fun t t' => t' = t) (fun _ => rfl) lab)
      exact ⟨Ast1.noGroup_retexted hr h3, Ast1.noCloser_retexted hr h4⟩
    · rintro ⟨h1, h2, h3⟩
      exact ⟨fun h => h1 h.symm, _, rfl, Ast1.noGroup_renum h2 _ _, Ast1.noCloser_renum h3 _ _⟩

end LatexAst.Ast2
