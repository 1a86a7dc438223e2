import Verif.Proofs.Load3b
import Verif.Props.ParagraphRule
import Verif.Props.Lines3

/-!
# Chunks that can be recognised are found again
-/

namespace LatexAst.Ast2

theorem neat_first {n : Atom} {A : List Atom} (hn : ¬ n.IsChar) {cs : List Chunk} (h : NeatSeq cs) (he : atoms cs = n :: A) :
    ∃ l v r, cs = .mk l v :: r ∧ v.atoms = [n] ∧ v.Neat ∧ NeatSeq r ∧ atoms r = A := by
  cases cs with
  | nil => simp [atoms] at he
  | cons c cs =>
    obtain ⟨l, v⟩ := c
    have hv : ∀ t, v ≠ .text t := by
      rintro t rfl
      rw [atoms_cons_text] at he
      cases t with
      | nil => exact h.1 rfl
      | cons x t =>
        simp at he
        exact hn (by rw [← he.1]; trivial)
    obtain ⟨a, h1, _⟩ := node_atoms hv
    simp only [atoms, h1, List.cons_append, List.nil_append, List.cons.injEq] at he
    exact ⟨l, v, cs, rfl, by rw [h1, he.1], h.1, h.2.1, he.2⟩

theorem neat_text_first {c : Char} {A : List Atom} {cs : List Chunk} (h : NeatSeq cs) (he : atoms cs = .char c :: A) :
    ∃ l t r, cs = .mk l (.text t) :: r ∧ NeatSeq r ∧ ¬ StartsText r ∧ t.map .char ++ atoms r = .char c :: A := by
  cases cs with
  | nil => simp [atoms] at he
  | cons x cs =>
    obtain ⟨l, v⟩ := x
    have hcases : (∃ t, v = .text t) ∨ ∀ t, v ≠ .text t := by
      cases v with
      | text t => exact .inl ⟨t, rfl⟩
      | _ => exact .inr (by intro t h; cases h)
    rcases hcases with ⟨t, rfl⟩ | hv
    · rw [atoms_cons_text] at he
      exact ⟨l, t, cs, rfl, h.2.1, h.2.2 ⟨t, rfl⟩, he⟩
    · obtain ⟨a, h1, h2⟩ := node_atoms hv
      simp only [atoms, h1, List.cons_append, List.nil_append, List.cons.injEq] at he
      rw [he.1] at h2
      exact absurd trivial h2

theorem atoms_nodes {ms : List Chunk} (h : ∀ m ∈ ms, Ast3.NotText m) : ∀ a ∈ atoms ms, ¬ a.IsChar := by
  induction ms with
  | nil => simp [atoms]
  | cons m ms ih =>
    obtain ⟨l, v⟩ := m
    obtain ⟨a, h1, h2⟩ := node_atoms (v := v) fun t => h _ (.head _) t
    intro x hx
    simp only [atoms, h1, List.cons_append, List.nil_append, List.mem_cons] at hx
    rcases hx with rfl | hx
    · exact h2
    · exact ih (fun m hm => h m (.tail _ hm)) x hx

theorem nodes_nil {ms : List Chunk} (h : ∀ m ∈ ms, Ast3.NotText m) (he : atoms ms = []) : ms = [] := by
  cases ms with
  | nil => rfl
  | cons m ms =>
    obtain ⟨l, v⟩ := m
    obtain ⟨a, h1, h2⟩ := node_atoms (v := v) fun t => h _ (.head _) t
    simp [atoms, h1] at he

theorem noDelimiter_atoms (k : Ast3.MathsType) (cs : List Chunk) : Ast3.NoDelimiter k cs ↔
    ∀ args, .command (Ast3.openLabel k) args ∉ atoms cs ∧ .command (Ast3.closeLabel k) args ∉ atoms cs := by
  induction cs with
  | nil => simp [Ast3.NoDelimiter, atoms]
  | cons c cs ih =>
    obtain ⟨l, v⟩ := c
    have h1 : Ast3.NoDelimiter k (.mk l v :: cs) ↔ Ast3.NotOfKind k (.mk l v) ∧ Ast3.NoDelimiter k cs := by
      simp [Ast3.NoDelimiter]
    rw [h1, ih]
    have h2 : Ast3.NotOfKind k (.mk l v) ↔
        ∀ args, .command (Ast3.openLabel k) args ∉ v.atoms ∧ .command (Ast3.closeLabel k) args ∉ v.atoms := by
      cases v with
      | text t => simp [Ast3.NotOfKind, ChunkVariant.atoms, Chunk.variant]
      | scope s => simp [Ast3.NotOfKind, ChunkVariant.atoms, Chunk.variant]
      | environment e => obtain ⟨⟩ := e; simp [Ast3.NotOfKind, ChunkVariant.atoms, Environment.atom, Chunk.variant]
      | command c =>
        obtain ⟨label, args⟩ := c
        simp only [Ast3.NotOfKind, ChunkVariant.atoms, Command.atom, Chunk.variant, ne_eq, ChunkVariant.command.injEq, Command.mk.injEq,
          List.mem_singleton, Atom.command.injEq]
        constructor
        · intro h a
          have := h args
          exact ⟨fun e => this.1 ⟨e.1.symm, rfl⟩, fun e => this.2 ⟨e.1.symm, rfl⟩⟩
        · intro h a
          have := h (argAtoms args)
          exact ⟨fun e => this.1 ⟨e.1.symm, rfl⟩, fun e => this.2 ⟨e.1.symm, rfl⟩⟩
    rw [h2]
    simp only [atoms, List.mem_append, not_or]
    constructor
    · intro ⟨h3, h4⟩ a
      exact ⟨⟨(h3 a).1, (h4 a).1⟩, ⟨(h3 a).2, (h4 a).2⟩⟩
    · intro h3
      exact ⟨fun a => ⟨(h3 a).1.1, (h3 a).2.1⟩, fun a => ⟨(h3 a).1.2, (h3 a).2.2⟩⟩

theorem neat_countFrom {n : Nat} : ∀ {cs : List Chunk}, NeatSeq cs → NeatSeq (cs.map (Ast3.countFrom n)) := by
  intro cs
  induction cs with
  | nil => simp [NeatSeq]
  | cons c cs ih =>
    obtain ⟨l, v⟩ := c
    intro ⟨h1, h2, h3⟩
    refine ⟨h1, ih h2, fun ht hs => h3 ht ?_⟩
    cases cs with
    | nil => cases hs
    | cons d cs => obtain ⟨l', v'⟩ := d; cases v' <;> simp_all [StartsText, Ast3.countFrom]

theorem neat_content {ms : List Chunk} {l : Nat} {t : Str} (h : NeatSeq ms) (hm : ∀ m ∈ ms, Ast3.NotText m) :
    NeatSeq (ms ++ Ast3.textIf2 l t) := by
  induction ms with
  | nil => unfold Ast3.textIf2; split <;> simp_all [NeatSeq, ChunkVariant.Neat, StartsText]
  | cons m ms ih =>
    obtain ⟨l', v⟩ := m
    refine ⟨h.1, ih h.2.1 fun m hm' => hm m (.tail _ hm'), ?_⟩
    rintro ⟨t, rfl⟩
    exact absurd rfl (hm _ (.head _) t)

end LatexAst.Ast2

namespace LatexAst.Ast3
open Spec

theorem paragraphs_other {c : Chunk} (h : ∀ t, c.variant ≠ .text t) (b : List Chunk) : paragraphs (c :: b) = c :: paragraphs b := by
  rw [C56]; exact .other h (split_total b)

/-- The pieces of a text are determined. -/
theorem paragraphs_text {l : Nat} {t : Str} {pieces : List Chunk} (hc : Cut false (pieces.map Chunk.variant))
    (hd : displayChunks pieces = t) : noLines (paragraphs (textIf l t)) = noLines pieces := by
  apply noLines_of_variants
  unfold textIf
  split
  · rename_i ht
    cases pieces with
    | nil => rfl
    | cons c p =>
      exfalso
      have h1 := cut_nonempty hc c.variant (by simp)
      rw [ht] at hd
      simp only [displayChunks, List.append_eq_nil_iff] at hd
      obtain ⟨l, v⟩ := c
      exact h1 hd.1
  · have h := split_total [.mk l (.text t)]
    generalize paragraphs [.mk l (.text t)] = x at h
    cases h with
    | text h1 h2 h3 h4 =>
      cases h4
      rw [List.append_nil]
      refine C32_unique h1 hc ?_
      rw [textOf_variants, textOf_variants, h2, hd]
    | other h1 _ => exact absurd rfl (h1 t)

/-- An empty text in front does not matter. -/
theorem yields_empty {b l cs o} : Yields b (.mk l (.text []) :: cs) o ↔ Yields b cs o := by
  have key : ∀ o, Yields b cs o → Yields b (.mk l (.text []) :: cs) o := by
    intro o h
    have := Yields.text (l := l) (t := []) (by simp) h
    simpa [textIf, before_nil] using this
  refine ⟨fun h => ?_, key o⟩
  obtain ⟨o', h'⟩ := yields_total b cs
  rw [yields_unique h (key o' h')]
  exact h'

theorem before_block (x : List Chunk) (pre l v ty i o) : before x (blockOutcome pre l v ty i o) = blockOutcome (x ++ pre) l v ty i o := by
  cases i with
  | error f => rfl
  | ok i => simp [blockOutcome, before_before]

/-- The text in front of the first dollar sign is converted on its own. -/
theorem yields_split {b l t u cs o} (ht : '$' ∉ t) (hu : u = [] ∨ ∃ r, u = '$' :: r) (h : Yields b (.mk l (.text (t ++ u)) :: cs) o) :
    ∃ o', Yields b (.mk (l + t.count '\n') (.text u) :: cs) o' ∧ o = before (textIf l t) o' := by
  obtain ⟨o', h'⟩ := yields_total b (.mk (l + t.count '\n') (.text u) :: cs)
  refine ⟨o', h', ?_⟩
  rcases hu with rfl | ⟨r, rfl⟩
  · have h2 := yields_empty.1 h'
    rw [List.append_nil] at h
    exact yields_unique h (.text ht h2)
  · have first : ∀ {q r' : Str}, '$' ∉ q → q ++ '$' :: r' = '$' :: r → q = [] ∧ r' = r := by
      intro q r' hq he
      cases q with
      | nil => simpa using he
      | cons c q => simp at he; simp [he.1] at hq
    generalize hx : (Ast2.Chunk.mk (l + t.count '\n') (.text ('$' :: r)) :: cs) = ds at h'
    cases h' with
    | text hn => simp at hx; obtain ⟨⟨_, rfl⟩, _⟩ := hx; simp at hn
    | formula hq hf hcn hi ho =>
      simp only [List.cons.injEq, Ast2.Chunk.mk.injEq, Ast2.ChunkVariant.text.injEq] at hx
      obtain ⟨⟨rfl, he⟩, rfl⟩ := hx
      obtain ⟨rfl, rfl⟩ := first hq he.symm
      rw [before_block, show textIf (l + t.count '\n') [] = [] from rfl, List.nil_append]
      exact yields_unique h (.formula ht hf hcn hi ho)
    | uncountable hq hf hcn =>
      simp only [List.cons.injEq, Ast2.Chunk.mk.injEq, Ast2.ChunkVariant.text.injEq] at hx
      obtain ⟨⟨rfl, he⟩, rfl⟩ := hx
      obtain ⟨rfl, rfl⟩ := first hq he.symm
      exact yields_unique h (.uncountable ht hf hcn)
    | unfinished hq hf =>
      simp only [List.cons.injEq, Ast2.Chunk.mk.injEq, Ast2.ChunkVariant.text.injEq] at hx
      obtain ⟨⟨rfl, he⟩, rfl⟩ := hx
      obtain ⟨rfl, rfl⟩ := first hq he.symm
      exact yields_unique h (.unfinished ht hf)
    | _ => simp at hx

/-- The outcome is a panic, or these chunks apart from line numbers, once cut into paragraphs. -/
def Gives (o : Outcome) (out : List Chunk) : Prop := o = .error .panic ∨ ∃ raw, o = .ok raw ∧ noLines (paragraphs raw) = noLines out

/-- The chunks are found again by converting. -/
def Found (out : List Chunk) : Prop := ∀ b l u ds o, Ast2.NeatSeq ds → ¬ Ast2.StartsText ds →
  u.map .char ++ Ast2.atoms ds = atoms out → Yields b (.mk l (.text u) :: ds) o → Gives o out

theorem Found.seq {out} (h : Found out) {b ds o} (hn : Ast2.NeatSeq ds) (he : Ast2.atoms ds = atoms out) (hy : Yields b ds o) : Gives o out := by
  by_cases hs : Ast2.StartsText ds
  · obtain ⟨l, t, r, rfl⟩ := Ast2.startsText_iff.1 hs
    rw [Ast2.atoms_cons_text] at he
    exact h b l t r o hn.2.1 (hn.2.2 ⟨t, rfl⟩) he hy
  · exact h b 0 [] ds o hn hs (by simpa using he) (yields_empty.2 hy)

theorem Found.args {args : List (Str × Scope)} (h : ∀ x ∈ args, Found x.2.chunks) : ∀ {items : List ((Str × Ast2.Scope) × Outcome)},
    (∀ x ∈ items, Ast2.NeatSeq x.1.2.chunks) → Ast2.argAtoms (items.map (·.1)) = argAtoms args → (∀ x ∈ items, Yields 0 x.1.2.chunks x.2) →
    argOutcome items = .error .panic ∨ ∃ args', argOutcome items = .ok args' ∧ noLinesArgs args' = noLinesArgs args := by
  induction args with
  | nil =>
    intro items _ he _
    have := Ast2.argAtoms_nil he
    rw [List.map_eq_nil_iff] at this
    subst this
    exact .inr ⟨[], rfl, rfl⟩
  | cons x args ih =>
    obtain ⟨p, ⟨inner, sv⟩⟩ := x
    intro items hn he hy
    cases items with
    | nil => simp [Ast2.argAtoms, argAtoms] at he
    | cons y items =>
      obtain ⟨⟨p', ⟨inner', sv'⟩⟩, o⟩ := y
      simp only [List.map_cons, Ast2.argAtoms, argAtoms, List.cons.injEq, Ast2.AtomArg.mk.injEq, Ast2.Scope.variant, Scope.variant,
        Ast2.Scope.atoms, Scope.atoms] at he
      obtain ⟨⟨rfl, rfl, he1⟩, he2⟩ := he
      have h1 := (h _ (.head _)).seq (hn _ (.head _)) he1 (hy _ (.head _))
      have h2 := ih (fun x hx => h x (.tail _ hx)) (fun x hx => hn x (.tail _ hx)) he2 (fun x hx => hy x (.tail _ hx))
      simp only at h1
      rcases h1 with rfl | ⟨raw, rfl, h1⟩
      · exact .inl rfl
      · rcases h2 with h2 | ⟨args', h2, h3⟩
        · exact .inl (by simp [argOutcome, h2])
        · refine .inr ⟨(p', .mk (paragraphs raw) sv') :: args', by simp only [argOutcome, h2, Ast2.Scope.variant], ?_⟩
          simp only [noLinesArgs, Scope.noLines, Ast2.Scope.variant, h3, Scope.chunks] at h1 ⊢
          rw [h1]

theorem Gives.cons {o rest} {c : Chunk} {l v} (hc : ∀ t, c.variant ≠ .text t) (h : Gives o rest) (hv : c.variant.noLines = v.noLines) :
    Gives (before [c] o) (.mk l v :: rest) := by
  rcases h with rfl | ⟨raw, rfl, h⟩
  · exact .inl rfl
  · refine .inr ⟨_, rfl, ?_⟩
    rw [List.singleton_append, paragraphs_other hc]
    obtain ⟨l', v'⟩ := c
    simp only [noLines, h]
    simp only [Chunk.variant] at hv
    rw [hv]

theorem Gives.block {i o content rest l l' v k} (h1 : Gives i content) (h2 : Gives o rest) :
    Gives (blockOutcome [] l' v k i o) (.mk l (.mathsBlock (.mk v k content)) :: rest) := by
  rcases h1 with rfl | ⟨raw, rfl, h1⟩
  · exact .inl rfl
  · refine Gives.cons (by intro t h; cases h) h2 ?_
    simp [Chunk.variant, ChunkVariant.noLines, MathsBlock.noLines, h1]

theorem atoms_command_node (label A) : ¬ (Ast2.Atom.command label A).IsChar := fun h => h
theorem atoms_scope_node (sv A) : ¬ (Ast2.Atom.scope sv A).IsChar := fun h => h
theorem atoms_environment_node (label A C pb pe) : ¬ (Ast2.Atom.environment label A C pb pe).IsChar := fun h => h

/-- Content that can be recognised and is not empty has atoms. -/
theorem Recognisable.atoms_ne {out} (h : Recognisable out) (hne : out ≠ []) : atoms out ≠ [] := by
  induction h with
  | nil => exact absurd rfl hne
  | @run pieces rest hc _ _ _ ih =>
    cases pieces with
    | nil => exact ih hne
    | cons c p =>
      obtain ⟨l, v⟩ := c
      have h1 := cut_nonempty hc v (by simp [Chunk.variant])
      have h2 := cut_textLike hc v (by simp [Chunk.variant])
      rcases h2 with ⟨t, rfl⟩ | ⟨t, rfl⟩ <;> simp_all [atoms, ChunkVariant.atoms, ChunkVariant.display]
  | command => simp [atoms, ChunkVariant.atoms]
  | scope => simp [atoms, ChunkVariant.atoms]
  | environment => simp [atoms, ChunkVariant.atoms]
  | @brackets _ k => simp [atoms, ChunkVariant.atoms, MathsBlock.atoms, delimAtoms_brackets]
  | @dollars _ k => cases k <;> simp [atoms, ChunkVariant.atoms, MathsBlock.atoms, delimAtoms_dollars, dollarsOf]

/-- Chunks that do not begin with text have a dollar sign or no character in front. -/
theorem Recognisable.front {out} (h : Recognisable out) {u : Str} {A} : ¬ BeginsWithText out → u.map .char ++ A = atoms out →
    u = [] ∨ ∃ r, u = '$' :: r := by
  have key : ∀ {n : Ast2.Atom} {B}, ¬ n.IsChar → u.map .char ++ A = n :: B → u = [] := by
    intro n B hn he
    cases u with
    | nil => rfl
    | cons c u => simp at he; rw [← he.1] at hn; exact absurd trivial hn
  induction h <;> intro hb he
  case nil => cases u with
    | nil => exact .inl rfl
    | cons c u => simp [atoms] at he
  case run pieces rest hc _ _ hr ih =>
    cases pieces with
    | nil => exact ih hb he
    | cons c p => obtain ⟨l, v⟩ := c; exact absurd ⟨l, v, _, rfl, cut_textLike hc v (by simp [Chunk.variant])⟩ hb
  case command => exact .inl (key (atoms_command_node _ _) (by simpa [atoms, ChunkVariant.atoms, Command.atom] using he))
  case scope => exact .inl (key (atoms_scope_node _ _) (by simpa [atoms, ChunkVariant.atoms, Command.atom] using he))
  case environment => exact .inl (key (atoms_environment_node _ _ _ _ _) (by simpa [atoms, ChunkVariant.atoms, Environment.atom] using he))
  case brackets => exact .inl (key (atoms_command_node _ _) (by simpa [atoms, ChunkVariant.atoms, MathsBlock.atoms, delimAtoms_brackets] using he))
  case dollars l k _ _ _ _ _ _ _ _ _ _ _ _ =>
    cases u with
    | nil => exact .inl rfl
    | cons c u => cases k <;> simp [atoms, ChunkVariant.atoms, MathsBlock.atoms, delimAtoms_dollars, dollarsOf] at he <;> exact .inr ⟨u, by rw [he.1]⟩

/-- The formula at the front is found. -/
theorem formula_found {l : Nat} {k : MathsType} {u t : Str} {ms : List Ast2.Atom} {ds : List Ast2.Chunk} {A : List Ast2.Atom}
    (hn : Ast2.NeatSeq ds) (hs : ¬ Ast2.StartsText ds) (hm : ∀ m ∈ ms, ¬ m.IsChar) (ht : '$' ∉ t)
    (hk : k = .inline → ms ≠ [] ∨ t ≠ [])
    (he : u.map .char ++ Ast2.atoms ds = (dollarsOf k).map .char ++ (ms ++ (t.map .char ++ ((dollarsOf k).map .char ++ A)))) :
    ∃ r l' p kept, u = '$' :: r ∧ Formula ⟨l, [], r, ds⟩ [] k (kept ++ textIf2 l' t) p ∧ p.line = l' ∧ p.pending = t ∧
      (∀ c ∈ kept, NotText c) ∧ Ast2.NeatSeq kept ∧ Ast2.atoms kept = ms ∧ Ast2.NeatSeq p.rest ∧ ¬ Ast2.StartsText p.rest ∧
      p.text.map .char ++ Ast2.atoms p.rest = A ∧
      ((kept = [] ∧ p.line = l ∧ p.rest = ds) ∨ ∃ x, ds = kept ++ .mk p.line (.text x) :: p.rest ∧ '$' ∈ x) := by
  obtain ⟨u₁, rfl, he₁⟩ := Ast2.chars_prefix hn hs he
  clear he
  -- from right after the opening dollar signs to right after the first closing one
  have main : ∀ l, ∃ (l' : Nat) (r : Str) (p : (Str × List Ast2.Chunk) × List Ast2.Chunk), ToDollar ⟨l, [], u₁, ds⟩ [] p.2 ⟨l', t, r ++ p.1.1, p.1.2⟩ ∧ r = (dollarsOf k).tail ∧ (∀ c ∈ p.2, NotText c) ∧ Ast2.NeatSeq p.2 ∧
      Ast2.atoms p.2 = ms ∧ Ast2.NeatSeq p.1.2 ∧ ¬ Ast2.StartsText p.1.2 ∧ p.1.1.map .char ++ Ast2.atoms p.1.2 = A ∧
      ((p.2 = [] ∧ l' = l ∧ p.1.2 = ds) ∨ ∃ x, ds = p.2 ++ .mk l' (.text x) :: p.1.2 ∧ '$' ∈ x) := by
    intro l
    cases ms with
    | nil =>
      obtain ⟨u₂, rfl, he₂⟩ := Ast2.chars_prefix hn hs he₁
      obtain ⟨u₃, rfl, he₃⟩ := Ast2.chars_prefix hn hs he₂
      refine ⟨l, (dollarsOf k).tail, ((u₃, ds), []), ?_, rfl, by simp, by simp [Ast2.NeatSeq], rfl, hn, hs, he₃, .inl ⟨rfl, rfl, rfl⟩⟩
      have h1 : dollarsOf k = '$' :: (dollarsOf k).tail := by cases k <;> rfl
      have := @ToDollar.here l [] t ((dollarsOf k).tail ++ u₃) ds ht
      simp only [List.nil_append] at this ⊢
      rw [h1, List.cons_append]
      exact this
    | cons m ms =>
      obtain ⟨rfl, he₂⟩ := Ast2.chars_none (hm m (.head _)) he₁
      obtain ⟨d₁, d₂, rfl, h1, h2, h3⟩ := Ast2.split_nodes hm hn (show Ast2.atoms ds = (m :: ms) ++ _ from he₂)
      obtain ⟨hn1, hn2⟩ := Ast2.neat_append hn
      have h1' : dollarsOf k = '$' :: (dollarsOf k).tail := by cases k <;> rfl
      obtain ⟨c, B, hB⟩ : ∃ c B, t.map Ast2.Atom.char ++ ((dollarsOf k).map Ast2.Atom.char ++ A) = .char c :: B := by
        cases t with
        | nil => rw [h1']; exact ⟨'$', _, rfl⟩
        | cons c t => exact ⟨c, _, rfl⟩
      obtain ⟨l', u₂, r, rfl, hn3, hs3, h4⟩ := Ast2.neat_text_first hn2 (h3.trans hB)
      rw [← hB] at h4
      obtain ⟨u₃, rfl, h5⟩ := Ast2.chars_prefix hn3 hs3 h4
      obtain ⟨u₄, rfl, h6⟩ := Ast2.chars_prefix hn3 hs3 h5
      refine ⟨l', (dollarsOf k).tail, ((u₄, r), d₁), ?_, rfl, h2, hn1, h1, hn3, hs3, h6, .inr ⟨_, rfl, by rw [h1']; simp⟩⟩
      have := @ToDollar.here l' [] t ((dollarsOf k).tail ++ u₄) r ht
      have := @ToDollar.later l [] [] d₁ l' (t ++ '$' :: ((dollarsOf k).tail ++ u₄)) r [] [] _ (by simp) h2 this
      simp only [List.nil_append, List.append_nil, textIf] at this
      rw [h1', List.cons_append]
      exact this
  cases k with
  | inline =>
    obtain ⟨l', r, ⟨⟨u₂, d⟩, kept⟩, h1, rfl, h2, h3, h4, h5, h6, h7, h8⟩ := main l
    refine ⟨u₁, l', _, kept, rfl, .inline h1 ?_, rfl, rfl, h2, h3, h4, h5, h6, h7, h8⟩
    rcases hk rfl with h | h
    · refine .inl ?_; rintro rfl; exact h h4.symm
    · exact .inr h
  | outline =>
    obtain ⟨l', r, ⟨⟨u₂, d⟩, kept⟩, h1, rfl, h2, h3, h4, h5, h6, h7, h8⟩ := main l
    have g1 := @ToDollar.here l [] [] u₁ ds (by simp)
    have g3 := @ToDollar.here l' t [] u₂ d (by simp)
    refine ⟨'$' :: u₁, l', ⟨l', t, u₂, d⟩, kept, rfl, ?_, rfl, rfl, h2, h3, h4, h5, h6, h7, h8⟩
    have := Formula.display g1 rfl h1 (p₃ := ⟨l', t, u₂, d⟩) (lost₃ := []) (kept₃ := []) (by simpa [dollarsOf] using g3)
    simpa using this

theorem Recognisable.found {out} (h : Recognisable out) : Found out := by
  induction h with
  | nil =>
    intro b l u ds o hn hs he hy
    have hu : u = [] := by simpa [atoms] using (List.append_eq_nil_iff.1 he).1
    subst hu
    have hd : ds = [] := by
      rcases Ast2.first_atom hn hs with h | ⟨_, _, _, a, _, _, _, _, h3⟩
      · exact h
      · simp [h3, atoms] at he
    subst hd
    rw [yields_unique (yields_empty.1 hy) .nil]
    exact .inr ⟨[], rfl, rfl⟩
  | @run pieces rest hc hd hb hr ih =>
    intro b l u ds o hn hs he hy
    rw [atoms_append, atoms_cut hc _ rfl] at he
    obtain ⟨u', rfl, he'⟩ := Ast2.chars_prefix hn hs he
    obtain ⟨o', ho, rfl⟩ := yields_split hd (hr.front hb he') hy
    rcases ih b _ u' ds o' hn hs he' ho with rfl | ⟨raw, rfl, h⟩
    · exact .inl rfl
    · refine .inr ⟨_, rfl, ?_⟩
      rw [paragraphs_append, noLines_append, noLines_append, paragraphs_text hc rfl, h]
  | @command l' label args rest hl _ _ ih1 ih2 =>
    intro b l u ds o hn hs he hy
    simp only [atoms, ChunkVariant.atoms, Command.atom, List.cons_append, List.nil_append] at he
    obtain ⟨rfl, he⟩ := Ast2.chars_none (atoms_command_node _ _) he
    obtain ⟨m, v, r, rfl, h1, h2, h3, h4⟩ := Ast2.neat_first (atoms_command_node _ _) hn he
    obtain ⟨args', rfl, h5⟩ := Ast2.command_of_atom h1
    obtain ⟨items, rfl, hi⟩ := yield_items (args := args') fun x _ => yields_total 0 x.2.chunks
    obtain ⟨o', ho'⟩ := yields_total b r
    rw [yields_unique (yields_empty.1 hy) (.command hl hi ho')]
    have hn' := (Ast2.neatArgs_iff _).1 h2
    have h6 := Found.args ih1 (fun x hx => hn' x.1 (List.mem_map.2 ⟨x, hx, rfl⟩)) h5 hi
    have h7 := ih2.seq h3 h4 ho'
    rcases h6 with h6 | ⟨args'', h6, h8⟩
    · exact .inl (by simp [commandOutcome, h6])
    · simp only [commandOutcome, h6]
      exact h7.cons (by intro t h; cases h) (by simp [Chunk.variant, ChunkVariant.noLines, Command.noLines, h8])
  | @scope l' inner sv rest _ _ ih1 ih2 =>
    intro b l u ds o hn hs he hy
    simp only [atoms, ChunkVariant.atoms, Scope.variant, Scope.atoms, List.cons_append, List.nil_append] at he
    obtain ⟨rfl, he⟩ := Ast2.chars_none (atoms_scope_node _ _) he
    obtain ⟨m, v, r, rfl, h1, h2, h3, h4⟩ := Ast2.neat_first (atoms_scope_node _ _) hn he
    obtain ⟨inner', rfl, h5⟩ := Ast2.scope_of_atom h1
    obtain ⟨i, hi⟩ := yields_total 0 inner'
    obtain ⟨o', ho'⟩ := yields_total b r
    rw [yields_unique (yields_empty.1 hy) (.scope hi ho')]
    have h6 := ih1.seq h2 h5 hi
    have h7 := ih2.seq h3 h4 ho'
    rcases h6 with rfl | ⟨raw, rfl, h6⟩
    · exact .inl rfl
    · exact h7.cons (by intro t h; cases h) (by simp [Chunk.variant, ChunkVariant.noLines, Scope.noLines, h6])
  | @environment l' label args content pb pe rest _ _ _ ih1 ih2 ih3 =>
    intro b l u ds o hn hs he hy
    simp only [atoms, ChunkVariant.atoms, Environment.atom, List.cons_append, List.nil_append] at he
    obtain ⟨rfl, he⟩ := Ast2.chars_none (atoms_environment_node _ _ _ _ _) he
    obtain ⟨m, v, r, rfl, h1, h2, h3, h4⟩ := Ast2.neat_first (atoms_environment_node _ _ _ _ _) hn he
    obtain ⟨args', content', rfl, h5, h5'⟩ := Ast2.environment_of_atom h1
    obtain ⟨items, rfl, hi⟩ := yield_items (args := args') fun x _ => yields_total 0 x.2.chunks
    obtain ⟨i, hi'⟩ := yields_total 0 content'
    obtain ⟨o', ho'⟩ := yields_total b r
    rw [yields_unique (yields_empty.1 hy) (.environment hi hi' ho')]
    have hn' := (Ast2.neatArgs_iff _).1 h2.1
    have h6 := Found.args ih1 (fun x hx => hn' x.1 (List.mem_map.2 ⟨x, hx, rfl⟩)) h5 hi
    have h7 := ih2.seq h2.2 h5' hi'
    have h8 := ih3.seq h3 h4 ho'
    rcases h6 with h6 | ⟨args'', h6, h9⟩
    · exact .inl (by simp [environmentOutcome, h6])
    · rcases h7 with rfl | ⟨raw, rfl, h7⟩
      · exact .inl (by simp [environmentOutcome, h6])
      · simp only [environmentOutcome, h6]
        exact h8.cons (by intro t h; cases h) (by simp [Chunk.variant, ChunkVariant.noLines, Environment.noLines, h9, h7])
  | @brackets l' k content rest hk _ _ ih1 ih2 =>
    intro b l u ds o hn hs he hy
    simp only [atoms, ChunkVariant.atoms, MathsBlock.atoms, delimAtoms_brackets, List.cons_append, List.nil_append, List.append_assoc] at he
    obtain ⟨rfl, he⟩ := Ast2.chars_none (atoms_command_node _ _) he
    obtain ⟨m, v, r, rfl, h1, h2, h3, h4⟩ := Ast2.neat_first (atoms_command_node _ _) hn he
    obtain ⟨args', rfl, h5⟩ := Ast2.command_of_atom h1
    obtain rfl := Ast2.argAtoms_nil h5
    obtain ⟨body, m', v', r', rfl, h6, h7, _, h8⟩ := Ast2.split_node (atoms_command_node _ _) h4
    obtain ⟨args'', rfl, h9⟩ := Ast2.command_of_atom h7
    obtain rfl := Ast2.argAtoms_nil h9
    obtain ⟨hn1, hn2⟩ := Ast2.neat_append h3
    have hk' : NoDelimiter k body := by
      rw [Ast2.noDelimiter_atoms] at hk ⊢
      rwa [h6, ← atoms_spelled]
    obtain ⟨i, hi⟩ := yields_total 0 body
    obtain ⟨o', ho'⟩ := yields_total m r'
    rw [yields_unique (yields_empty.1 hy) (.brackets (notOfKind_inside hk') hi ho')]
    exact (ih1.seq hn1 h6 hi).block (ih2.seq hn2.2.1 h8 ho')
  | @dollars l' k content rest ms t hsp hm ht hk hrc _ ih1 ih2 =>
    intro b l u ds o hn hs he hy
    have hcont : atoms content = Ast2.atoms ms ++ t.map .char := by
      rw [← atoms_spelled, hsp, Ast2.atoms_append, atoms_textIf2]
    simp only [atoms, ChunkVariant.atoms, MathsBlock.atoms, delimAtoms_dollars, List.append_assoc, hcont] at he
    obtain ⟨r, m, p, kept, rfl, hf, rfl, rfl, h1, h2, h3, h4, h5, h6, -⟩ := formula_found (l := l) hn hs (Ast2.atoms_nodes hm) ht (by
      intro hki
      have := hrc.atoms_ne (hk hki)
      rw [hcont] at this
      by_cases hms : Ast2.atoms ms = []
      · refine .inr ?_; rintro h; rw [hms, h] at this; exact this rfl
      · exact .inl hms) he
    by_cases hc : Countable p.line (kept ++ textIf2 p.line p.pending)
    · obtain ⟨i, hi⟩ := yields_total 0 ((kept ++ textIf2 p.line p.pending).map (countFrom p.line))
      obtain ⟨o', ho'⟩ := yields_total b (.mk (p.line + p.pending.count '\n') (.text p.text) :: p.rest)
      have hf' : Formula ⟨l + ([] : Str).count '\n', [], r, ds⟩ [] k (kept ++ textIf2 p.line p.pending) p := hf
      rw [yields_unique hy (.formula (q := []) (by simp) hf' hc hi ho')]
      have g1 := ih1.seq (Ast2.neat_countFrom (Ast2.neat_content h2 h1)) (by
        rw [Ast2.atoms_countFrom, Ast2.atoms_append, atoms_textIf2, h3, hcont]) hi
      have g2 := ih2 _ _ _ _ _ h4 h5 h6 ho'
      exact g1.block g2
    · refine .inl (yields_unique hy (.uncountable (q := []) (by simp) (lost := []) (type := k) (p := p) ?_ hc))
      exact hf

end LatexAst.Ast3
