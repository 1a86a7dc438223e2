import Verif.Proofs.Paste4
import Verif.Props.Paste

/-!
# Building documents of stage 2
-/

namespace LatexAst.Ast2
open Spec

theorem args_spelt : ∀ {args : List (Str × Scope)},
    (∀ prec inner sv, (prec, Scope.mk inner sv) ∈ args → Blank prec ∧ Survives inner ∧ NoBracketOf sv inner) ↔
    ∃ args', SpeltArgs args args' ∧ ∀ prec inner sv, (prec, Ast1.Scope.mk inner sv) ∈ args' → Blank prec ∧ Ast1.Survives inner ∧ Ast1.NoGroupOf sv inner ∧ Ast1.NoCloserOf sv inner
  | [] => by
    constructor
    · intro _; exact ⟨[], rfl, fun _ _ _ h => by cases h⟩
    · intro _ _ _ _ h; cases h
  | (p, .mk cs sv) :: r => by
    have ih := args_spelt (args := r)
    constructor
    · intro h
      obtain ⟨r', h1, h2⟩ := ih.1 fun prec inner sv hm => h prec inner sv (.tail _ hm)
      obtain ⟨h3, h4, h5⟩ := h p cs sv (.head _)
      obtain ⟨d, hg, hs⟩ := survives_spelt.1 h4
      refine ⟨(p, .mk d sv) :: r', ⟨d, r', rfl, hs, h1⟩, fun prec inner sv' hm => ?_⟩
      cases hm with
      | head => exact ⟨h3, Ast1.survives_good.2 hg, (brackets_spelt hs hg).1 h5⟩
      | tail _ hm => exact h2 _ _ _ hm
    · rintro ⟨_, ⟨d, r', rfl, hs, h1⟩, h2⟩ prec inner sv' hm
      cases hm with
      | head =>
        obtain ⟨h3, h4, h5⟩ := h2 p d sv (.head _)
        have hg := Ast1.survives_good.1 h4
        exact ⟨h3, survives_spelt.2 ⟨d, hg, hs⟩, (brackets_spelt hs hg).2 h5⟩
      | tail _ hm => exact ih.2 ⟨r', h1, fun prec inner sv hm => h2 prec inner sv (.tail _ hm)⟩ _ _ _ hm

theorem survives_single {l : Nat} {v : ChunkVariant} : Survives [.mk l v] ↔ ∃ d, Ast1.Survives d ∧ SpeltV v (d.map Ast1.Chunk.variant) := by
  simp only [survives_spelt, spelt_single, Ast1.survives_good]

theorem single_variant {d : List Ast1.Chunk} {v} (h : d.map Ast1.Chunk.variant = [v]) : ∃ l, d = [.mk l v] := by
  obtain ⟨⟨l, v'⟩, rfl, hv⟩ := List.map_eq_singleton_iff.1 h
  simp only [Ast1.Chunk.variant] at hv; subst hv; exact ⟨l, rfl⟩

/-- A letter command with arguments decides nothing but that. -/
theorem joins_withArgs {l l' : Nat} {label label' : Str} {args args'} {b : List Ast1.Chunk}
    (h : Ast1.Survives [.mk l (.command (.mk label args))]) (h' : Ast1.Survives [.mk l' (.command (.mk label' args'))]) (ha : args ≠ []) (ha' : args' ≠ [])
    (hb : Ast1.Survives b) : Ast1.Joins [.mk l (.command (.mk label args))] b ↔ Ast1.Joins [.mk l' (.command (.mk label' args'))] b := by
  have key : ∀ {l label args}, Ast1.Survives [.mk l (.command (.mk label args))] → args ≠ [] →
      (Ast1.Joins [.mk l (.command (.mk label args))] b ↔ Ast1.Fitting .withArgs b) := by
    intro l label args h ha
    obtain ⟨h1, _⟩ := Ast1.good_iff.1 (Ast1.survives_good.1 h)
    obtain ⟨h2, _⟩ := Ast1.good_iff.1 (Ast1.survives_good.1 hb)
    rw [← Ast1.run_joins h1.2 h2.2 h2.1]
    have : Ast1.After.plain.run [.mk l (.command (.mk label args))] = .withArgs := by
      rcases h1.2 l _ (List.mem_singleton.2 rfl) with ⟨hn, _⟩ | ⟨_, _, _, hn⟩
      · simp [Ast1.After.run, Ast1.After.next, Ast1.Chunk.variant, hn, ha]
      · exact absurd hn ha
    rw [this]
  rw [key h ha, key h' ha']

/-- A `\begin` or `\end` may follow anything. -/
theorem joins_end {a : List Ast1.Chunk} {l : Nat} {x y : Char} {label args} : Ast1.Joins a [.mk l (.command (.mk (x :: y :: label) args))] := by
  refine ⟨(fun i l t l' t' r _ h => by cases h), (fun i l x name args l' t r _ _ h => by cases h), fun i w w' l v r hi hb he hw => ?_⟩
  match w', hb with
  | [], hb =>
    cases hb
    exact ⟨(fun _ h => by cases h), fun _ _ h => by cases h⟩
  | [_], hb => simp at hb
  | _ :: _ :: _, hb => simp at hb

theorem survives_begin {l : Nat} {x : Char} {name : Str} {args} (hx : Ast1.LetterName (x :: y :: name)) :
    Ast1.Survives [.mk l (.command (.mk (x :: y :: name) args))] ↔
      ∀ prec inner sv, (prec, Ast1.Scope.mk inner sv) ∈ args → Blank prec ∧ Ast1.Survives inner ∧ Ast1.NoGroupOf sv inner ∧ Ast1.NoCloserOf sv inner := by
  rw [Ast1.C108_command]
  constructor
  · rintro (⟨_, h⟩ | ⟨c, h, _⟩)
    · exact h
    · simp at h
  · intro h; exact .inl ⟨hx, h⟩

theorem letterName_begin : Ast1.LetterName chars!"begin" := ⟨'b', chars!"egin", rfl, by decide, by simp [Special]; decide⟩
theorem letterName_end : Ast1.LetterName chars!"end" := ⟨'e', chars!"nd", rfl, by decide, by simp [Special]; decide⟩

theorem survives_x {l : Nat} : Ast1.Survives [.mk l (.command (.mk ['x'] [([], .mk [] .curly)]))] := by
  rw [Ast1.C108_command]
  refine .inl ⟨⟨'x', [], rfl, by decide, by simp⟩, fun prec inner sv hm => ?_⟩
  rw [List.mem_singleton] at hm
  cases hm
  exact ⟨(fun _ h => by cases h), Ast1.C108_nil, ⟨(fun _ _ h => by cases h <;> contradiction), fun _ _ _ _ _ h => by cases h <;> contradiction⟩,
    fun _ h => by cases h <;> contradiction⟩

theorem survives_environment {l : Nat} {label : Str} {args} {content : Document} {pb pe : Str} :
    Survives [.mk l (.environment (.mk label args content pb pe))] ↔
      Blank pb ∧ Blank pe ∧
      (∃ lab, Ast1.fromStr label = .ok lab ∧ Ast1.displayChunks lab = label ∧ Ast1.NoGroupOf .curly lab ∧ Ast1.NoCloserOf .curly lab) ∧
      (∀ prec inner sv, (prec, Scope.mk inner sv) ∈ args → Blank prec ∧ Survives inner ∧ NoBracketOf sv inner) ∧
      Survives content ∧ Joins [.mk 1 (.command (.mk ['x'] [([], .mk [] .curly)]))] content := by
  have hx : Spelt [.mk 1 (.command (.mk ['x'] [([], .mk [] .curly)]))] (([.mk 1 (.command (.mk ['x'] [([], .mk [] .curly)]))] : List Ast1.Chunk).map Ast1.Chunk.variant) := by
    rw [spelt_single]
    simp only [SpeltV]
    exact ⟨by decide, by decide, _, rfl, ⟨[], [], rfl, by simp [Spelt], by simp [SpeltArgs]⟩⟩
  rw [args_spelt]
  constructor
  · intro h
    obtain ⟨d, hd, hs⟩ := survives_single.1 h
    simp only [SpeltV] at hs
    obtain ⟨lab, args', body, hlab, h2, h3, hw⟩ := hs
    match d, hw with
    | .mk l1 v1 :: d, hw =>
      simp only [List.map_cons, List.cons.injEq, Ast1.Chunk.variant] at hw
      obtain ⟨rfl, hw⟩ := hw
      obtain ⟨db, de, rfl, rfl, he⟩ := List.map_eq_append_iff.1 hw
      obtain ⟨l2, rfl⟩ := single_variant he
      rw [show ∀ c, c :: (db ++ [.mk l2 (.command (.mk chars!"end" [(pe, .mk lab .curly)]))]) = ([c] ++ db) ++ [.mk l2 (.command (.mk chars!"end" [(pe, .mk lab .curly)]))] from
        fun _ => by simp, Ast1.C108, Ast1.C108] at hd
      obtain ⟨⟨k1, k2, k3⟩, k4, _⟩ := hd
      have k5 := (survives_begin letterName_begin).1 k1
      have k6 := (survives_begin letterName_end).1 k4
      obtain ⟨m1, m2, m3, m4⟩ := k5 pb lab .curly (.head _)
      have mg := Ast1.survives_good.1 m2
      have hp := Ast1.printable_parse mg
      refine ⟨m1, (k6 pe lab .curly (.head _)).1, ?_, ⟨args', h2, fun p i sv hm => k5 p i sv (.tail _ hm)⟩, ?_, ?_⟩
      · refine ⟨_, by rw [← hlab]; exact hp, by rw [Ast1.display_renumSeq, hlab], Ast1.noGroup_renum m3 _ _, Ast1.noCloser_renum m4 _ _⟩
      · exact survives_spelt.2 ⟨db, Ast1.survives_good.1 k2, h3⟩
      · rw [joins_spelt hx h3]
        exact (joins_withArgs k1 survives_x (by simp) (by simp) k2).1 k3
  · rintro ⟨h1, h2, ⟨lab, h3, rfl, h4, h5⟩, ⟨args', h6, h7⟩, h8, h9⟩
    obtain ⟨db, hg, hs⟩ := survives_spelt.1 h8
    have hdb := Ast1.survives_good.2 hg
    have hlab : Ast1.Survives lab := ⟨lab, h3, Ast1.retexted_refl (R := fun t t' => t' = t) (fun _ => rfl) lab⟩
    have k1 : Ast1.Survives [.mk 1 (.command (.mk chars!"begin" ((pb, .mk lab .curly) :: args')))] := by
      refine (survives_begin letterName_begin).2 fun p i sv hm => ?_
      cases hm with
      | head => exact ⟨h1, hlab, h4, h5⟩
      | tail _ hm => exact h7 _ _ _ hm
    have k4 : Ast1.Survives [.mk 1 (.command (.mk chars!"end" [(pe, .mk lab .curly)]))] := by
      refine (survives_begin letterName_end).2 fun p i sv hm => ?_
      rw [List.mem_singleton] at hm; cases hm
      exact ⟨h2, hlab, h4, h5⟩
    rw [joins_spelt hx hs] at h9
    have k3 := (joins_withArgs k1 survives_x (by simp) (by simp) hdb).2 h9
    refine survives_single.2 ⟨([.mk 1 (.command (.mk chars!"begin" ((pb, .mk lab .curly) :: args')))] ++ db) ++ [.mk 1 (.command (.mk chars!"end" [(pe, .mk lab .curly)]))], ?_, ?_⟩
    · rw [Ast1.C108, Ast1.C108]
      exact ⟨⟨k1, hdb, k3⟩, k4, joins_end⟩
    · simp only [SpeltV]
      exact ⟨lab, args', _, rfl, h6, hs, by simp [Ast1.Chunk.variant]⟩

end LatexAst.Ast2
