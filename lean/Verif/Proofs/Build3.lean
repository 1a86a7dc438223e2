import Verif.Spec.Build3
import Verif.Props.Join3

/-!
# Stage-3 chunks one by one
-/

namespace LatexAst.Ast2
open Spec

theorem touches_right_symbol {a : List Chunk} {l y args} (h : isWhitespace y = false ∧ y ∉ ['{', '[', '(']) : Touches a [.mk l (.command (.mk [y] args))] := by
  refine ⟨?_, ?_, ?_⟩
  · intro i l x name args l' t r _ _ h; simp at h
  · intro i l env l' t r _ h; simp at h
  · intro i w w' l v r _ hb _ hw
    cases w' with
    | nil =>
      simp at hb
      obtain ⟨⟨_, rfl⟩, _⟩ := hb
      exact ⟨fun _ h => (by cases h), fun y' args' h' => (by cases h'; exact h)⟩
    | cons c w' =>
      simp at hb

theorem touches_left_symbol {b : List Chunk} {l y args} (h : isAsciiAlphabetic y = false) : Touches [.mk l (.command (.mk [y] args))] b := by
  have single : ∀ {i : List Chunk} {c d : Chunk}, [c] = i ++ [d] → d = c := fun he => (List.cons.inj (List.append_inj' (s₁ := []) he rfl).2).1.symm
  refine ⟨?_, ?_, ?_⟩
  · intro i l x name args l' t r he hx _
    have := single he
    simp at this
    obtain ⟨_, ⟨rfl, _⟩, _⟩ := this
    rw [h] at hx; cases hx
  · intro i l env l' t r he _; have := single he; simp at this
  · intro i w w' l v r he hb hc hw
    exfalso
    obtain ⟨j, l1, v1, rfl, hv⟩ := hc
    cases w with
    | nil =>
      rw [List.append_nil] at he
      have := single he
      rcases hv with ⟨x, r, args, rfl, hx⟩ | ⟨e, rfl⟩
      · simp at this
        obtain ⟨_, ⟨rfl, _⟩, _⟩ := this
        rw [h] at hx; cases hx
      · simp at this
    | cons c w =>
      have := congrArg List.length he
      simp at this
      omega

theorem touches_left_text {b : List Chunk} {l t} : Touches [.mk l (.text t)] b := by
  have single : ∀ {i : List Chunk} {c d : Chunk}, [c] = i ++ [d] → d = c := fun he => (List.cons.inj (List.append_inj' (s₁ := []) he rfl).2).1.symm
  refine ⟨?_, ?_, ?_⟩
  · intro i l x name args l' t r he _ _; have := single he; simp at this
  · intro i l env l' t r he _; have := single he; simp at this
  · intro i w w' l v r he hb hc hw
    exfalso
    obtain ⟨j, l1, v1, rfl, hv⟩ := hc
    cases w with
    | nil =>
      rw [List.append_nil] at he
      have := single he
      rcases hv with ⟨x, r, args, rfl, hx⟩ | ⟨e, rfl⟩ <;> simp at this
    | cons c w =>
      have := congrArg List.length he
      simp at this
      omega

theorem touches_environment {x y : List Chunk} {l e} : Touches (x ++ [.mk l (.environment e)]) y ↔ Touches Ast3.afterBegin y := by
  constructor
  · rintro ⟨_, h2, h3⟩
    refine ⟨?_, ?_, ?_⟩
    · intro i l x name args l' t r he _ hb
      have := (List.append_inj' (s₁ := []) he rfl).2
      simp at this
      obtain ⟨_, _, rfl⟩ := this
      exact ⟨fun h => absurd h (by simp), fun _ => h2 _ _ _ _ _ _ rfl hb⟩
    · intro i l env l' t r he
      have := (List.append_inj' (s₁ := []) he rfl).2
      simp at this
    · intro i w w' l v r he hb hc hw
      cases w with
      | nil => exact h3 _ [] w' l v r (by rw [List.append_nil]) hb ⟨_, _, _, rfl, .inr ⟨_, rfl⟩⟩ hw
      | cons c w =>
        obtain ⟨j, _, _, rfl, _⟩ := hc
        have := congrArg List.length he
        simp [Ast3.afterBegin] at this
        omega
  · rintro ⟨h1, _, h3⟩
    refine ⟨?_, ?_, ?_⟩
    · intro i l x name args l' t r he
      have := (List.append_inj' he rfl).2
      simp at this
    · intro i l env l' t r _ hb
      exact (h1 [] _ _ _ _ _ _ _ rfl (by decide) hb).2 (by simp)
    · intro i w w' l v r he hb hc hw
      rcases List.eq_nil_or_concat w with rfl | ⟨w0, c, rfl⟩
      · exact h3 Ast3.afterBegin [] w' l v r (List.append_nil _).symm hb ⟨[], _, _, rfl, .inl ⟨'x', [], _, rfl, by decide⟩⟩ hw
      · rw [List.concat_eq_append, ← List.append_assoc] at he
        have := (List.append_inj' he rfl).2
        obtain ⟨t, ht, _⟩ := hw c (by simp)
        simp at this
        rw [← this] at ht
        simp [Chunk.variant] at ht

/-- What a text may follow. -/
theorem touches_right_text {a : List Chunk} {l c t} (hw : isWhitespace c = false) (hc : c ∉ ['}', ']', ')']) :
    Touches a [.mk l (.text (c :: t))] ↔ ∀ i l x name, a = i ++ [.mk l (.command (.mk (x :: name) []))] → isAsciiAlphabetic x = false := by
  constructor
  · intro h i l x name he
    cases hx : isAsciiAlphabetic x with
    | false => rfl
    | true =>
      obtain ⟨y, z, hy, hyw⟩ := (h.1 _ _ _ _ _ _ _ [] he hx rfl).1 rfl
      cases hy
      rw [hw] at hyw; cases hyw
  · intro h
    refine ⟨?_, ?_, ?_⟩
    · intro i l x name args l' t r he hx hb
      cases hb
      refine ⟨fun ha => ?_, fun _ y z hy => (by cases hy; exact hc)⟩
      subst ha
      rw [h _ _ _ _ he] at hx; cases hx
    · intro i l env l' t r _ hb y z hy
      cases hb; cases hy
      exact hc
    · intro i w w' l v r _ hb _ _
      cases w' with
      | nil => simp at hb; obtain ⟨⟨_, rfl⟩, _⟩ := hb; exact ⟨fun _ h => (by cases h), fun _ _ h => (by cases h)⟩
      | cons _ w' => simp at hb

end LatexAst.Ast2

namespace LatexAst.Ast3
open Spec

/-- What `Recognisable` says of a node that is not a text or break. -/
def NodeSeen : ChunkVariant → Prop
  | .command (.mk label args) => ¬ IsDelimiter label ∧ ∀ x ∈ args, Recognisable x.2.chunks
  | .scope (.mk inner _) => Recognisable inner
  | .environment (.mk _ args content _ _) => (∀ x ∈ args, Recognisable x.2.chunks) ∧ Recognisable content
  | .mathsBlock (.mk .brackets k content) => NoDelimiter k (spelled content) ∧ Recognisable content
  | .mathsBlock (.mk .dollars k content) => (∃ ms t, spelled content = ms ++ textIf2 0 t ∧ (∀ m ∈ ms, NotText m) ∧ '$' ∉ t) ∧
      (k = .inline → content ≠ []) ∧ Recognisable content
  | _ => False

theorem Recognisable.node {z} (h : Recognisable z) : ∀ {l v r}, z = .mk l v :: r → ¬ TextLike v → NodeSeen v ∧ Recognisable r := by
  induction h with
  | nil => intro l v r he; cases he
  | @run pieces rest h1 h2 h3 h4 ih =>
    intro l v r he hv
    cases pieces with
    | nil => exact ih he hv
    | cons c p =>
      simp only [List.cons_append, List.cons.injEq] at he
      obtain ⟨rfl, rfl⟩ := he
      exfalso
      simp only [List.map_cons, Chunk.variant] at h1
      generalize List.map Chunk.variant p = q at h1
      cases h1 with
      | last => exact hv (.inl ⟨_, rfl⟩)
      | text => exact hv (.inl ⟨_, rfl⟩)
      | «break» => exact hv (.inr ⟨_, rfl⟩)
  | command h1 h2 h3 => intro l v r he _; cases he; exact ⟨⟨h1, h2⟩, h3⟩
  | scope h1 h2 => intro l v r he _; cases he; exact ⟨h1, h2⟩
  | environment h1 h2 h3 => intro l v r he _; cases he; exact ⟨⟨h1, h2⟩, h3⟩
  | brackets h1 h2 h3 => intro l v r he _; cases he; exact ⟨⟨h1, h2⟩, h3⟩
  | dollars h1 h2 h3 h4 h5 h6 => intro l v r he _; cases he; exact ⟨⟨⟨_, _, h1, h2, h3⟩, h4, h5⟩, h6⟩

theorem recognisable_node {l v} (hv : ¬ TextLike v) : Recognisable [.mk l v] ↔ NodeSeen v := by
  refine ⟨fun h => (h.node rfl hv).1, fun h => ?_⟩
  match v, h with
  | .command (.mk label args), h => exact .command h.1 h.2 .nil
  | .scope (.mk inner _), h => exact .scope h .nil
  | .environment (.mk _ args content _ _), h => exact .environment h.1 h.2 .nil
  | .mathsBlock (.mk .brackets k content), h => exact .brackets h.1 h.2 .nil
  | .mathsBlock (.mk .dollars k content), h => obtain ⟨⟨ms, t, h1, h2, h3⟩, h4, h5⟩ := h; exact .dollars h1 h2 h3 h4 h5 .nil

theorem cut_single {v} : Cut false [v] ↔ (∃ t, v = .text t ∧ IsParagraph t) ∨ ∃ s, v = .paragraphBreak s ∧ IsBreak s := by
  constructor
  · intro h
    cases h with
    | last h _ => exact .inl ⟨_, rfl, h⟩
    | «break» h _ => exact .inr ⟨_, rfl, h⟩
  · rintro (⟨t, rfl, h⟩ | ⟨s, rfl, h⟩)
    · exact .last h (by simp)
    · exact .break h .nil

theorem recognisable_textLike {l v} (hv : TextLike v) : Recognisable [.mk l v] ↔ Cut false [v] ∧ '$' ∉ v.display := by
  constructor
  · intro h
    obtain ⟨p, r, he, h1, h2, h3, h4⟩ := h.leading
    cases p with
    | nil => rw [List.nil_append] at he; rw [← he] at h3; exact absurd ⟨_, _, _, rfl, hv⟩ h3
    | cons c p =>
      simp only [List.cons_append, List.cons.injEq] at he
      obtain ⟨rfl, he⟩ := he
      obtain ⟨rfl, rfl⟩ := List.append_eq_nil_iff.1 he.symm
      simp only [List.map_cons, List.map_nil, Chunk.variant] at h1
      simp only [displayChunks, Chunk.display, List.append_nil] at h2
      exact ⟨h1, h2⟩
  · rintro ⟨h1, h2⟩
    have := Recognisable.run (pieces := [.mk l v]) (rest := []) h1 (by simpa [displayChunks, Chunk.display] using h2) (by rintro ⟨_, _, _, h, _⟩; cases h) .nil
    simpa using this

theorem mem_spellArgs {args : List (Str × Scope)} {prec inner sv} :
    (prec, Ast2.Scope.mk inner sv) ∈ spellArgs args ↔ ∃ i, (prec, Scope.mk i sv) ∈ args ∧ inner = spelled i := by
  induction args with
  | nil => simp [spellArgs]
  | cons x args ih =>
    obtain ⟨p, ⟨i, k⟩⟩ := x
    simp only [spellArgs, Scope.spell, List.mem_cons, ih, Prod.mk.injEq, Ast2.Scope.mk.injEq, Scope.mk.injEq]
    constructor
    · rintro (⟨rfl, rfl, rfl⟩ | ⟨i, h, rfl⟩)
      · exact ⟨i, .inl ⟨rfl, rfl, rfl⟩, rfl⟩
      · exact ⟨i, .inr h, rfl⟩
    · rintro ⟨i, ⟨rfl, rfl, rfl⟩ | h, rfl⟩
      · exact .inl ⟨rfl, rfl, rfl⟩
      · exact .inr ⟨i, h, rfl⟩

theorem sound_text (l : Nat) (t : Str) : Sound [.mk l (.text t)] ↔ IsParagraph t ∧ ∀ x ∈ t, x ∉ ['\\', '%', '{', '[', '(', '$'] := by
  have e1 : t ≠ [] → spelled [.mk l (.text t)] = [.mk 0 (.text t)] := fun h => by simp [spelled, spellOnto, ChunkVariant.spell, addText, h]
  have e2 := recognisable_textLike (l := l) (v := .text t) (.inl ⟨t, rfl⟩)
  have e3 : Cut false [.text t] ↔ IsParagraph t := by rw [cut_single]; simp
  rw [e3] at e2
  simp only [ChunkVariant.display] at e2
  constructor
  · rintro ⟨h1, h2, _⟩
    obtain ⟨h3, h4⟩ := e2.1 h1
    rw [e1 h3.1, Ast2.C108_text] at h2
    refine ⟨h3, fun x hx => ?_⟩
    have := h2.2 x hx
    have : x ≠ '$' := by rintro rfl; exact h4 hx
    simp_all
  · rintro ⟨h1, h2⟩
    refine ⟨e2.2 ⟨h1, fun h => h2 _ h (by simp)⟩, ?_, calm_text (by simp [Chunk.variant])⟩
    rw [e1 h1.1, Ast2.C108_text]
    refine ⟨h1.1, fun x hx => ?_⟩
    have := h2 x hx
    simp_all

theorem blank_plain {c : Char} (h : isWhitespace c = true) : c ∉ ['\\', '%', '{', '[', '(', '$'] := by
  intro hm
  simp only [List.mem_cons, List.not_mem_nil, or_false] at hm
  rcases hm with rfl | rfl | rfl | rfl | rfl | rfl <;> revert h <;> decide

theorem sound_break (l : Nat) (s : Str) : Sound [.mk l (.paragraphBreak s)] ↔ IsBreak s := by
  have e2 := recognisable_textLike (l := l) (v := .paragraphBreak s) (.inr ⟨s, rfl⟩)
  have e3 : Cut false [.paragraphBreak s] ↔ IsBreak s := by rw [cut_single]; simp
  rw [e3] at e2
  simp only [ChunkVariant.display] at e2
  constructor
  · rintro ⟨h1, _, _⟩; exact (e2.1 h1).1
  · intro h
    have hne : s ≠ [] := by obtain ⟨⟨r, rfl⟩, _⟩ := h; simp
    have e1 : spelled [.mk l (.paragraphBreak s)] = [.mk 0 (.text s)] := by simp [spelled, spellOnto, ChunkVariant.spell, addText, hne]
    refine ⟨e2.2 ⟨h, fun hm => blank_plain (h.2.1 _ hm) (by simp)⟩, ?_, calm_text (by simp [Chunk.variant])⟩
    rw [e1, Ast2.C108_text]
    refine ⟨hne, fun x hx => ?_⟩
    have := blank_plain (h.2.1 x hx)
    simp_all

theorem node_scope {s} : ¬ TextLike (.scope s) := by rintro (⟨_, h⟩ | ⟨_, h⟩) <;> cases h
theorem node_command {s} : ¬ TextLike (.command s) := by rintro (⟨_, h⟩ | ⟨_, h⟩) <;> cases h
theorem node_environment {s} : ¬ TextLike (.environment s) := by rintro (⟨_, h⟩ | ⟨_, h⟩) <;> cases h
theorem node_maths {s} : ¬ TextLike (.mathsBlock s) := by rintro (⟨_, h⟩ | ⟨_, h⟩) <;> cases h

theorem calm_args {args : List (Str × Scope)} (P : Scope → Prop) : (∀ x ∈ args, P x.2) ↔ ∀ prec inner sv, (prec, Scope.mk inner sv) ∈ args → P (.mk inner sv) :=
  ⟨fun h _ _ _ hm => h _ hm, fun h x hx => by obtain ⟨p, ⟨i, k⟩⟩ := x; exact h _ _ _ hx⟩

theorem sound_scope (l : Nat) (inner : List Chunk) (sv : ScopeVariant) : Sound [.mk l (.scope (.mk inner sv))] ↔
    sv = .curly ∧ Sound inner ∧ ∀ t, Ast2.Within (spelled inner) (.text t) → '}' ∉ t := by
  have e : spelled [.mk l (.scope (.mk inner sv))] = [.mk 0 (.scope (.mk (spelled inner) sv))] := rfl
  constructor
  · rintro ⟨h1, h2, h3⟩
    rw [recognisable_node node_scope] at h1
    rw [e, Ast2.C108_scope] at h2
    rw [calm_scope] at h3
    exact ⟨h2.1, ⟨h1, h2.2.1, h3.1⟩, h2.2.2⟩
  · rintro ⟨h1, ⟨h2, h3, h4⟩, h5⟩
    refine ⟨(recognisable_node node_scope).2 h2, ?_, calm_scope.2 ⟨h4, calm_nil⟩⟩
    rw [e, Ast2.C108_scope]
    exact ⟨h1, h3, h5⟩

/-- `GoodArgs`, with `Sound`. -/
def SoundArgs (args : List (Str × Scope)) : Prop :=
  ∀ prec inner sv, (prec, Scope.mk inner sv) ∈ args → Blank prec ∧ Sound inner ∧ Ast2.NoBracketOf sv (spelled inner)

theorem soundArgs_iff {args : List (Str × Scope)} : SoundArgs args ↔ (∀ x ∈ args, Recognisable x.2.chunks) ∧ (∀ x ∈ args, Calm x.2.chunks) ∧
    ∀ prec inner sv, (prec, Ast2.Scope.mk inner sv) ∈ spellArgs args → Blank prec ∧ Ast2.Survives inner ∧ Ast2.NoBracketOf sv inner := by
  constructor
  · intro h
    refine ⟨?_, ?_, ?_⟩
    · rintro ⟨p, ⟨i, k⟩⟩ hx; exact (h _ _ _ hx).2.1.recognisable
    · rintro ⟨p, ⟨i, k⟩⟩ hx; exact (h _ _ _ hx).2.1.calm
    · intro prec inner sv hm
      obtain ⟨i, hm', rfl⟩ := mem_spellArgs.1 hm
      obtain ⟨h1, h2, h3⟩ := h _ _ _ hm'
      exact ⟨h1, h2.stage2, h3⟩
  · rintro ⟨h1, h2, h3⟩ prec inner sv hm
    obtain ⟨h4, h5, h6⟩ := h3 _ _ _ (mem_spellArgs.2 ⟨_, hm, rfl⟩)
    exact ⟨h4, ⟨h1 _ hm, h5, h2 _ hm⟩, h6⟩

theorem spellArgs_nil {args : List (Str × Scope)} : spellArgs args = [] ↔ args = [] := by
  cases args <;> simp [spellArgs]

theorem sound_command (l : Nat) (label : Str) (args : List (Str × Scope)) : Sound [.mk l (.command (.mk label args))] ↔
    label ≠ chars!"begin" ∧ label ≠ chars!"end" ∧ ¬ IsDelimiter label ∧
      ((Ast1.LetterName label ∧ SoundArgs args) ∨ ∃ c, label = [c] ∧ isAsciiAlphabetic c = false ∧ args = []) := by
  have e : spelled [.mk l (.command (.mk label args))] = [.mk 0 (.command (.mk label (spellArgs args)))] := rfl
  constructor
  · rintro ⟨h1, h2, h3⟩
    rw [recognisable_node node_command] at h1
    rw [e, Ast2.C108_command] at h2
    rw [calm_command] at h3
    refine ⟨h2.1, h2.2.1, h1.1, ?_⟩
    rcases h2.2.2 with ⟨g1, g2⟩ | ⟨c, g1, g2, g3⟩
    · exact .inl ⟨g1, soundArgs_iff.2 ⟨h1.2, h3.1, g2⟩⟩
    · exact .inr ⟨c, g1, g2, spellArgs_nil.1 g3⟩
  · rintro ⟨h1, h2, h3, h4⟩
    have hs : (∀ x ∈ args, Recognisable x.2.chunks) ∧ ∀ x ∈ args, Calm x.2.chunks := by
      rcases h4 with ⟨_, g⟩ | ⟨_, _, _, rfl⟩
      · exact ⟨(soundArgs_iff.1 g).1, (soundArgs_iff.1 g).2.1⟩
      · simp
    refine ⟨(recognisable_node node_command).2 ⟨h3, hs.1⟩, ?_, calm_command.2 ⟨hs.2, calm_nil⟩⟩
    rw [e, Ast2.C108_command]
    refine ⟨h1, h2, ?_⟩
    rcases h4 with ⟨g1, g2⟩ | ⟨c, g1, g2, rfl⟩
    · exact .inl ⟨g1, (soundArgs_iff.1 g2).2.2⟩
    · exact .inr ⟨c, g1, g2, rfl⟩

theorem sound_environment (l : Nat) (label : Str) (args : List (Str × Scope)) (content : List Chunk) (pb pe : Str) :
    Sound [.mk l (.environment (.mk label args content pb pe))] ↔ Blank pb ∧ Blank pe ∧ GoodName label ∧ SoundArgs args ∧ Sound content ∧
      Ast2.Touches afterBegin (spelled content) := by
  have e : spelled [.mk l (.environment (.mk label args content pb pe))] = [.mk 0 (.environment (.mk label (spellArgs args) (spelled content) pb pe))] := rfl
  have ej : Ast2.Joins [.mk 1 (.command (.mk ['x'] [([], .mk [] .curly)]))] (spelled content) ↔ Ast2.Touches afterBegin (spelled content) :=
    Ast2.joins_touches (neat_afterBegin (neat_spelled content))
  constructor
  · rintro ⟨h1, h2, h3⟩
    rw [recognisable_node node_environment] at h1
    rw [e, Ast2.C108_environment, ej] at h2
    rw [calm_environment] at h3
    exact ⟨h2.1, h2.2.1, h2.2.2.1, soundArgs_iff.2 ⟨h1.1, h3.1, h2.2.2.2.1⟩, ⟨h1.2, h2.2.2.2.2.1, h3.2.1⟩, h2.2.2.2.2.2⟩
  · rintro ⟨h1, h2, h3, h4, h5, h6⟩
    have hs := soundArgs_iff.1 h4
    refine ⟨(recognisable_node node_environment).2 ⟨hs.1, h5.recognisable⟩, ?_, calm_environment.2 ⟨hs.2.1, h5.calm, calm_nil⟩⟩
    rw [e, Ast2.C108_environment, ej]
    exact ⟨h1, h2, h3, hs.2.2, h5.stage2, h6⟩

/-- The delimiters of bracket maths, as commands. -/
theorem delimiter_survives (k : MathsType) : Ast2.Survives [.mk 0 (.command (.mk (openLabel k) []))] ∧ Ast2.Survives [.mk 0 (.command (.mk (closeLabel k) []))] := by
  cases k <;> refine ⟨?_, ?_⟩ <;> rw [Ast2.C108_command] <;> exact ⟨by decide, by decide, .inr ⟨_, rfl, by decide, rfl⟩⟩

theorem sound_brackets (l : Nat) (k : MathsType) (content : List Chunk) : Sound [.mk l (.mathsBlock (.mk .brackets k content))] ↔
    Sound content ∧ NoDelimiter k (spelled content) := by
  have ea : Ast2.atoms (spelled [.mk l (.mathsBlock (.mk .brackets k content))]) =
      Ast2.atoms (spelled [.mk 0 (.command (.mk (openLabel k) []))]) ++ Ast2.atoms (spelled (content ++ [.mk 0 (.command (.mk (closeLabel k) []))])) := by
    rw [← atoms_spelled_append, atoms_spelled, atoms_spelled, List.singleton_append]
    cases k <;> simp [atoms, ChunkVariant.atoms, MathsBlock.atoms, atoms3_append, Command.atom, delimAtoms, argAtoms, openLabel, closeLabel]
  have e := Ast2.survives_merge (neat_spelled _) (neat_spelled _) (neat_spelled _) ea
  rw [stage2_append] at e
  have d1 : spelled [.mk 0 (.command (.mk (openLabel k) []))] = [.mk 0 (.command (.mk (openLabel k) []))] := rfl
  have d2 : spelled [.mk 0 (.command (.mk (closeLabel k) []))] = [.mk 0 (.command (.mk (closeLabel k) []))] := rfl
  rw [d1, d2] at e
  have t1 : Ast2.Touches [.mk 0 (.command (.mk (openLabel k) []))] (spelled (content ++ [.mk 0 (.command (.mk (closeLabel k) []))])) := by
    cases k <;> exact Ast2.touches_left_symbol (by decide)
  have t2 : Ast2.Touches (spelled content) [.mk 0 (.command (.mk (closeLabel k) []))] := by
    cases k <;> exact Ast2.touches_right_symbol (by decide)
  have e' : Ast2.Survives (spelled [.mk l (.mathsBlock (.mk .brackets k content))]) ↔ Ast2.Survives (spelled content) :=
    e.trans ⟨fun h => h.2.1.1, fun h => ⟨(delimiter_survives k).1, ⟨h, (delimiter_survives k).2, t2⟩, t1⟩⟩
  constructor
  · rintro ⟨h1, h2, h3⟩
    rw [recognisable_node node_maths] at h1
    rw [calm_maths] at h3
    exact ⟨⟨h1.2, e'.1 h2, h3.1.2⟩, h1.1⟩
  · rintro ⟨⟨h1, h2, h3⟩, h4⟩
    exact ⟨(recognisable_node node_maths).2 ⟨h4, h1⟩, e'.2 h2, calm_maths.2 ⟨⟨fun h => (by cases h), h3⟩, calm_nil⟩⟩

theorem sound_dollars (l : Nat) (k : MathsType) (content : List Chunk) : Sound [.mk l (.mathsBlock (.mk .dollars k content))] ↔
    Sound content ∧ (∃ ms t, spelled content = ms ++ textIf2 0 t ∧ (∀ m ∈ ms, NotText m) ∧ '$' ∉ t) ∧ (k = .inline → content ≠ []) ∧
      (∀ i l x name, spelled content = i ++ [.mk l (.command (.mk (x :: name) []))] → isAsciiAlphabetic x = false) ∧
      Ast2.ShortFrom (Ast2.nodesOnly (spelled content)) := by
  have ea : Ast2.atoms (spelled [.mk l (.mathsBlock (.mk .dollars k content))]) =
      Ast2.atoms (spelled [.mk 0 (.text (dollarsOf k))]) ++ Ast2.atoms (spelled (content ++ [.mk 0 (.text (dollarsOf k))])) := by
    rw [← atoms_spelled_append, atoms_spelled, atoms_spelled, List.singleton_append]
    cases k <;> simp [atoms, ChunkVariant.atoms, MathsBlock.atoms, atoms3_append, delimAtoms, dollars, dollarsOf]
  have e := Ast2.survives_merge (neat_spelled _) (neat_spelled _) (neat_spelled _) ea
  rw [stage2_append] at e
  have d1 : spelled [.mk 0 (.text (dollarsOf k))] = [.mk 0 (.text (dollarsOf k))] := by cases k <;> rfl
  rw [d1] at e
  have t1 : Ast2.Touches [.mk 0 (.text (dollarsOf k))] (spelled (content ++ [.mk 0 (.text (dollarsOf k))])) := Ast2.touches_left_text
  have t2 : Ast2.Touches (spelled content) [.mk 0 (.text (dollarsOf k))] ↔
      ∀ i l x name, spelled content = i ++ [.mk l (.command (.mk (x :: name) []))] → isAsciiAlphabetic x = false := by
    cases k <;> exact Ast2.touches_right_text (by decide) (by decide)
  have s1 : Ast2.Survives [.mk 0 (.text (dollarsOf k))] := by
    rw [Ast2.C108_text]; cases k <;> decide
  rw [t2] at e
  have e' : Ast2.Survives (spelled [.mk l (.mathsBlock (.mk .dollars k content))]) ↔ Ast2.Survives (spelled content) ∧
      ∀ i l x name, spelled content = i ++ [.mk l (.command (.mk (x :: name) []))] → isAsciiAlphabetic x = false :=
    e.trans ⟨fun h => ⟨h.2.1.1, h.2.1.2.2⟩, fun h => ⟨s1, ⟨h.1, s1, h.2⟩, t1⟩⟩
  constructor
  · rintro ⟨h1, h2, h3⟩
    rw [recognisable_node node_maths] at h1
    rw [calm_maths] at h3
    obtain ⟨g1, g2⟩ := e'.1 h2
    exact ⟨⟨h1.2.2, g1, h3.1.2⟩, h1.1, h1.2.1, g2, h3.1.1 rfl⟩
  · rintro ⟨⟨h1, h2, h3⟩, h4, h5, h6, h7⟩
    exact ⟨(recognisable_node node_maths).2 ⟨h4, h5, h1⟩, e'.2 ⟨h2, h6⟩, calm_maths.2 ⟨⟨fun _ => h7, h3⟩, calm_nil⟩⟩

end LatexAst.Ast3
