import Verif.Proofs.Load3f

/-!
# When loading does not panic, 2
-/

namespace LatexAst.Ast3
open Spec

theorem calm_nil : Calm [] := by
  intro k content h
  cases h with
  | here hm | scope hm | arg hm | envArg hm | envContent hm | maths hm => cases hm

theorem within_append {a b v} : Within (a ++ b) v ↔ Within a v ∨ Within b v := by
  constructor
  · intro h
    cases h with
    | here hm =>
      rcases List.mem_append.1 hm with hm | hm
      · exact .inl (.here hm)
      · exact .inr (.here hm)
    | scope hm h =>
      rcases List.mem_append.1 hm with hm | hm
      · exact .inl (.scope hm h)
      · exact .inr (.scope hm h)
    | arg hm h1 h =>
      rcases List.mem_append.1 hm with hm | hm
      · exact .inl (.arg hm h1 h)
      · exact .inr (.arg hm h1 h)
    | envArg hm h1 h =>
      rcases List.mem_append.1 hm with hm | hm
      · exact .inl (.envArg hm h1 h)
      · exact .inr (.envArg hm h1 h)
    | envContent hm h =>
      rcases List.mem_append.1 hm with hm | hm
      · exact .inl (.envContent hm h)
      · exact .inr (.envContent hm h)
    | maths hm h =>
      rcases List.mem_append.1 hm with hm | hm
      · exact .inl (.maths hm h)
      · exact .inr (.maths hm h)
  · rintro (h | h)
    · cases h with
      | here hm => exact .here (List.mem_append_left _ hm)
      | scope hm h => exact .scope (List.mem_append_left _ hm) h
      | arg hm h1 h => exact .arg (List.mem_append_left _ hm) h1 h
      | envArg hm h1 h => exact .envArg (List.mem_append_left _ hm) h1 h
      | envContent hm h => exact .envContent (List.mem_append_left _ hm) h
      | maths hm h => exact .maths (List.mem_append_left _ hm) h
    · cases h with
      | here hm => exact .here (List.mem_append_right _ hm)
      | scope hm h => exact .scope (List.mem_append_right _ hm) h
      | arg hm h1 h => exact .arg (List.mem_append_right _ hm) h1 h
      | envArg hm h1 h => exact .envArg (List.mem_append_right _ hm) h1 h
      | envContent hm h => exact .envContent (List.mem_append_right _ hm) h
      | maths hm h => exact .maths (List.mem_append_right _ hm) h

theorem calm_append {a b} : Calm (a ++ b) ↔ Calm a ∧ Calm b := by
  constructor
  · intro h; exact ⟨fun k c hw => h k c (within_append.2 (.inl hw)), fun k c hw => h k c (within_append.2 (.inr hw))⟩
  · rintro ⟨h1, h2⟩ k c hw
    rcases within_append.1 hw with hw | hw
    · exact h1 k c hw
    · exact h2 k c hw

theorem calm_cons {c cs} : Calm (c :: cs) ↔ Calm [c] ∧ Calm cs := calm_append (a := [c])

theorem calm_text {cs : List Chunk} (h : ∀ v ∈ cs.map Chunk.variant, (∃ t, v = .text t) ∨ ∃ t, v = .paragraphBreak t) : Calm cs := by
  have key : ∀ {l v}, Chunk.mk l v ∈ cs → (∃ t, v = .text t) ∨ ∃ t, v = .paragraphBreak t := fun {l v} hm => h v (List.mem_map.2 ⟨_, hm, rfl⟩)
  intro k content hw
  cases hw with
  | here hm => rcases key hm with ⟨_, h⟩ | ⟨_, h⟩ <;> cases h
  | scope hm => rcases key hm with ⟨_, h⟩ | ⟨_, h⟩ <;> cases h
  | arg hm => rcases key hm with ⟨_, h⟩ | ⟨_, h⟩ <;> cases h
  | envArg hm => rcases key hm with ⟨_, h⟩ | ⟨_, h⟩ <;> cases h
  | envContent hm => rcases key hm with ⟨_, h⟩ | ⟨_, h⟩ <;> cases h
  | maths hm => rcases key hm with ⟨_, h⟩ | ⟨_, h⟩ <;> cases h

theorem calm_command {l label args cs} : Calm (.mk l (.command (.mk label args)) :: cs) ↔ (∀ x ∈ args, Calm x.2.chunks) ∧ Calm cs := by
  rw [calm_cons]
  refine and_congr ⟨fun h => ?_, fun h k content hw => ?_⟩ Iff.rfl
  · rintro ⟨p, ⟨inner, sv⟩⟩ hx k content hw
    exact h k content (.arg (.head _) hx hw)
  · cases hw with
    | here hm => simp at hm
    | scope hm => simp at hm
    | arg hm h1 h2 => simp at hm; obtain ⟨_, _, rfl⟩ := hm; exact h _ h1 k content h2
    | envArg hm => simp at hm
    | envContent hm => simp at hm
    | maths hm => simp at hm

theorem calm_scope {l inner sv cs} : Calm (.mk l (.scope (.mk inner sv)) :: cs) ↔ Calm inner ∧ Calm cs := by
  rw [calm_cons]
  refine and_congr ⟨fun h => ?_, fun h k content hw => ?_⟩ Iff.rfl
  · intro k content hw
    exact h k content (.scope (.head _) hw)
  · cases hw with
    | here hm => simp at hm
    | scope hm h2 => simp at hm; obtain ⟨_, rfl, _⟩ := hm; exact h k content h2
    | arg hm => simp at hm
    | envArg hm => simp at hm
    | envContent hm => simp at hm
    | maths hm => simp at hm

theorem calm_environment {l label args body pb pe cs} : Calm (.mk l (.environment (.mk label args body pb pe)) :: cs) ↔
    (∀ x ∈ args, Calm x.2.chunks) ∧ Calm body ∧ Calm cs := by
  rw [calm_cons, ← and_assoc]
  refine and_congr ⟨fun h => ⟨?_, ?_⟩, fun h k content hw => ?_⟩ Iff.rfl
  · rintro ⟨p, ⟨inner, sv⟩⟩ hx k content hw
    exact h k content (.envArg (.head _) hx hw)
  · intro k content hw
    exact h k content (.envContent (.head _) hw)
  · cases hw with
    | here hm => simp at hm
    | scope hm => simp at hm
    | arg hm => simp at hm
    | envArg hm h1 h2 => simp at hm; obtain ⟨_, _, rfl, _⟩ := hm; exact h.1 _ h1 k content h2
    | envContent hm h2 => simp at hm; obtain ⟨_, _, _, rfl, _⟩ := hm; exact h.2 k content h2
    | maths hm => simp at hm

theorem calm_maths {l v k body cs} : Calm (.mk l (.mathsBlock (.mk v k body)) :: cs) ↔
    ((v = .dollars → Ast2.ShortFrom (Ast2.nodesOnly (spelled body))) ∧ Calm body) ∧ Calm cs := by
  rw [calm_cons]
  refine and_congr ⟨fun h => ⟨?_, ?_⟩, fun h k content hw => ?_⟩ Iff.rfl
  · rintro rfl
    exact h _ _ (.here (.head _))
  · intro k content hw
    exact h k content (.maths (.head _) hw)
  · cases hw with
    | here hm => simp at hm; obtain ⟨_, h1, _, rfl⟩ := hm; exact h.1 h1.symm
    | scope hm => simp at hm
    | arg hm => simp at hm
    | envArg hm => simp at hm
    | envContent hm => simp at hm
    | maths hm h2 => simp at hm; obtain ⟨_, _, _, rfl⟩ := hm; exact h.2 k content h2

/-- The outcome is chunks. -/
def Goes (o : Outcome) : Prop := ∃ raw, o = .ok raw

theorem goes_before {x o} : Goes (before x o) ↔ Goes o := by
  cases o <;> simp [Goes, before]

theorem goes_block {pre l v k i o} : Goes (blockOutcome pre l v k i o) ↔ Goes i ∧ Goes o := by
  cases i with
  | error f => simp [Goes, blockOutcome]
  | ok x => simp only [blockOutcome, goes_before]; simp [Goes]

theorem goes_scope {l sv i o} : Goes (scopeOutcome l sv i o) ↔ Goes i ∧ Goes o := by
  cases i with
  | error f => simp [Goes, scopeOutcome]
  | ok x => simp only [scopeOutcome, goes_before]; simp [Goes]

theorem goes_command {l label items o} : Goes (commandOutcome l label items o) ↔ (∃ a, argOutcome items = .ok a) ∧ Goes o := by
  unfold commandOutcome
  cases argOutcome items with
  | error f => simp [Goes]
  | ok x => simp only [goes_before]; simp

theorem goes_environment {l label pb pe items i o} : Goes (environmentOutcome l label pb pe items i o) ↔
    (∃ a, argOutcome items = .ok a) ∧ Goes i ∧ Goes o := by
  unfold environmentOutcome
  cases argOutcome items with
  | error f => simp [Goes]
  | ok x =>
    cases i with
    | error f => simp [Goes]
    | ok y => simp only [goes_before]; simp [Goes]

/-- The chunks are found without a panic exactly if they are calm. -/
def Safe (out : List Chunk) : Prop := ∀ b l u ds o, Ast2.NeatSeq ds → ¬ Ast2.StartsText ds → 1 ≤ l → Ast2.LinedSeq ds →
  u.map .char ++ Ast2.atoms ds = atoms out → Yields b (.mk l (.text u) :: ds) o → (Goes o ↔ Calm out)

theorem Safe.seq {out} (h : Safe out) {b ds o} (hn : Ast2.NeatSeq ds) (hl : Ast2.LinedSeq ds) (he : Ast2.atoms ds = atoms out) (hy : Yields b ds o) :
    Goes o ↔ Calm out := by
  by_cases hs : Ast2.StartsText ds
  · obtain ⟨l, t, r, rfl⟩ := Ast2.startsText_iff.1 hs
    rw [Ast2.atoms_cons_text] at he
    exact h b l t r o hn.2.1 (hn.2.2 ⟨t, rfl⟩) (hl.2.2.1 ⟨t, rfl⟩) hl.2.1 he hy
  · exact h b 1 [] ds o hn hs (Nat.le_refl _) hl (by simpa using he) (yields_empty.2 hy)

theorem Safe.args {args : List (Str × Scope)} (h : ∀ x ∈ args, Safe x.2.chunks) : ∀ {items : List ((Str × Ast2.Scope) × Outcome)},
    (∀ x ∈ items, Ast2.NeatSeq x.1.2.chunks) → (∀ x ∈ items, Ast2.LinedSeq x.1.2.chunks) → Ast2.argAtoms (items.map (·.1)) = argAtoms args →
    (∀ x ∈ items, Yields 0 x.1.2.chunks x.2) → ((∃ a, argOutcome items = .ok a) ↔ ∀ x ∈ args, Calm x.2.chunks) := by
  induction args with
  | nil =>
    intro items _ _ he _
    have := Ast2.argAtoms_nil he
    rw [List.map_eq_nil_iff] at this
    subst this
    simp [argOutcome]
  | cons x args ih =>
    obtain ⟨p, ⟨inner, sv⟩⟩ := x
    intro items hn hl he hy
    cases items with
    | nil => simp [Ast2.argAtoms, argAtoms] at he
    | cons y items =>
      obtain ⟨⟨p', ⟨inner', sv'⟩⟩, o⟩ := y
      simp only [List.map_cons, Ast2.argAtoms, argAtoms, List.cons.injEq, Ast2.AtomArg.mk.injEq, Ast2.Scope.variant, Scope.variant,
        Ast2.Scope.atoms, Scope.atoms] at he
      obtain ⟨⟨rfl, rfl, he1⟩, he2⟩ := he
      have h1 := (h _ (.head _)).seq (hn _ (.head _)) (hl _ (.head _)) he1 (hy _ (.head _))
      have h2 := ih (fun x hx => h x (.tail _ hx)) (fun x hx => hn x (.tail _ hx)) (fun x hx => hl x (.tail _ hx)) he2 (fun x hx => hy x (.tail _ hx))
      simp only [List.mem_cons, forall_eq_or_imp, ← h2, ← h1]
      cases o with
      | error f => simp [argOutcome, Goes]
      | ok r =>
        simp only [argOutcome]
        cases argOutcome items with
        | error f => simp
        | ok a => simp [Goes]

theorem Recognisable.safe {out} (h : Recognisable out) : Safe out := by
  induction h with
  | nil =>
    intro b l u ds o hn hs _ _ he hy
    have hu : u = [] := by simpa [atoms] using (List.append_eq_nil_iff.1 he).1
    subst hu
    have hd : ds = [] := by
      rcases Ast2.first_atom hn hs with h | ⟨_, _, _, a, _, _, _, _, h3⟩
      · exact h
      · simp [h3, atoms] at he
    subst hd
    rw [yields_unique (yields_empty.1 hy) .nil]
    simp [Goes, calm_nil]
  | @run pieces rest hc hd hb hr ih =>
    intro b l u ds o hn hs h1 hl he hy
    rw [atoms_append, atoms_cut hc _ rfl] at he
    obtain ⟨u', rfl, he'⟩ := Ast2.chars_prefix hn hs he
    obtain ⟨o', ho, rfl⟩ := yields_split hd (hr.front hb he') hy
    rw [goes_before, ih b _ u' ds o' hn hs (by omega) hl he' ho, calm_append]
    simp [calm_text fun v hv => cut_textLike hc v hv]
  | @command l' label args rest hlb _ _ ih1 ih2 =>
    intro b l u ds o hn hs h1 hl he hy
    simp only [atoms, ChunkVariant.atoms, Command.atom, List.cons_append, List.nil_append] at he
    obtain ⟨rfl, he⟩ := Ast2.chars_none (atoms_command_node _ _) he
    obtain ⟨m, v, r, rfl, h1, h2, h3, h4⟩ := Ast2.neat_first (atoms_command_node _ _) hn he
    obtain ⟨args', rfl, h5⟩ := Ast2.command_of_atom h1
    obtain ⟨items, rfl, hi⟩ := yield_items (args := args') fun x _ => yields_total 0 x.2.chunks
    obtain ⟨o', ho'⟩ := yields_total b r
    rw [yields_unique (yields_empty.1 hy) (.command hlb hi ho')]
    have hn' := (Ast2.neatArgs_iff _).1 h2
    have hl' := (Ast2.linedArgs_iff _).1 hl.1
    rw [goes_command, calm_command, Safe.args ih1 (fun x hx => hn' x.1 (List.mem_map.2 ⟨x, hx, rfl⟩)) (fun x hx => hl' x.1 (List.mem_map.2 ⟨x, hx, rfl⟩)) h5 hi,
      ih2.seq h3 hl.2.1 h4 ho']
  | @scope l' inner sv rest _ _ ih1 ih2 =>
    intro b l u ds o hn hs _ hl he hy
    simp only [atoms, ChunkVariant.atoms, Scope.variant, Scope.atoms, List.cons_append, List.nil_append] at he
    obtain ⟨rfl, he⟩ := Ast2.chars_none (atoms_scope_node _ _) he
    obtain ⟨m, v, r, rfl, h1, h2, h3, h4⟩ := Ast2.neat_first (atoms_scope_node _ _) hn he
    obtain ⟨inner', rfl, h5⟩ := Ast2.scope_of_atom h1
    obtain ⟨i, hi⟩ := yields_total 0 inner'
    obtain ⟨o', ho'⟩ := yields_total b r
    rw [yields_unique (yields_empty.1 hy) (.scope hi ho')]
    rw [goes_scope, calm_scope, ih1.seq h2 hl.1 h5 hi, ih2.seq h3 hl.2.1 h4 ho']
  | @environment l' label args content pb pe rest _ _ _ ih1 ih2 ih3 =>
    intro b l u ds o hn hs _ hl he hy
    simp only [atoms, ChunkVariant.atoms, Environment.atom, List.cons_append, List.nil_append] at he
    obtain ⟨rfl, he⟩ := Ast2.chars_none (atoms_environment_node _ _ _ _ _) he
    obtain ⟨m, v, r, rfl, h1, h2, h3, h4⟩ := Ast2.neat_first (atoms_environment_node _ _ _ _ _) hn he
    obtain ⟨args', content', rfl, h5, h5'⟩ := Ast2.environment_of_atom h1
    obtain ⟨items, rfl, hi⟩ := yield_items (args := args') fun x _ => yields_total 0 x.2.chunks
    obtain ⟨i, hi'⟩ := yields_total 0 content'
    obtain ⟨o', ho'⟩ := yields_total b r
    rw [yields_unique (yields_empty.1 hy) (.environment hi hi' ho')]
    have hn' := (Ast2.neatArgs_iff _).1 h2.1
    have hl' := (Ast2.linedArgs_iff _).1 hl.1.1
    rw [goes_environment, calm_environment, Safe.args ih1 (fun x hx => hn' x.1 (List.mem_map.2 ⟨x, hx, rfl⟩))
      (fun x hx => hl' x.1 (List.mem_map.2 ⟨x, hx, rfl⟩)) h5 hi, ih2.seq h2.2 hl.1.2 h5' hi', ih3.seq h3 hl.2.1 h4 ho']
  | @brackets l' k content rest hk _ _ ih1 ih2 =>
    intro b l u ds o hn hs _ hl he hy
    simp only [atoms, ChunkVariant.atoms, MathsBlock.atoms, delimAtoms_brackets, List.cons_append, List.nil_append, List.append_assoc] at he
    obtain ⟨rfl, he⟩ := Ast2.chars_none (atoms_command_node _ _) he
    obtain ⟨m, v, r, rfl, h1, h2, h3, h4⟩ := Ast2.neat_first (atoms_command_node _ _) hn he
    obtain ⟨args', rfl, h5⟩ := Ast2.command_of_atom h1
    obtain rfl := Ast2.argAtoms_nil h5
    obtain ⟨body, m', v', r', rfl, h6, h7, _, h8⟩ := Ast2.split_node (atoms_command_node _ _) h4
    obtain ⟨args'', rfl, h9⟩ := Ast2.command_of_atom h7
    obtain rfl := Ast2.argAtoms_nil h9
    obtain ⟨hn1, hn2⟩ := Ast2.neat_append h3
    have hk' : NoDelimiter k body := by
      rw [Ast2.noDelimiter_atoms] at hk ⊢
      rwa [h6, ← atoms_spelled]
    obtain ⟨i, hi⟩ := yields_total 0 body
    obtain ⟨o', ho'⟩ := yields_total m r'
    rw [yields_unique (yields_empty.1 hy) (.brackets (notOfKind_inside hk') hi ho')]
    rw [goes_block, calm_maths, ih1.seq hn1 (Ast2.lined_prefix hl.2.1) h6 hi, ih2.seq hn2.2.1 (Ast2.lined_suffix hl.2.1).2.1 h8 ho']
    simp
  | @dollars l' k content rest ms t hsp hm ht hk hrc _ ih1 ih2 =>
    intro b l u ds o hn hs hl1 hl he hy
    have hcont : atoms content = Ast2.atoms ms ++ t.map .char := by
      rw [← atoms_spelled, hsp, Ast2.atoms_append, atoms_textIf2]
    simp only [atoms, ChunkVariant.atoms, MathsBlock.atoms, delimAtoms_dollars, List.append_assoc, hcont] at he
    obtain ⟨r, m, p, kept, rfl, hf, rfl, rfl, h1, h2, h3, h4, h5, h6, h7⟩ := formula_found (l := l) hn hs (Ast2.atoms_nodes hm) ht (by
      intro hki
      have := hrc.atoms_ne (hk hki)
      rw [hcont] at this
      by_cases hms : Ast2.atoms ms = []
      · refine .inr ?_; rintro h; rw [hms, h] at this; exact this rfl
      · exact .inl hms) he
    -- the text in which the formula is closed
    obtain ⟨x, rest', hx, hpl, hlx, hlr⟩ : ∃ x rest', '$' ∈ x ∧ 1 ≤ p.line ∧ Ast2.LinedSeq (kept ++ .mk p.line (.text x) :: rest') ∧ Ast2.LinedSeq p.rest := by
      rcases h7 with ⟨rfl, h7, h8⟩ | ⟨x, rfl, hx⟩
      · exact ⟨['$'], [], by simp, by omega, ⟨trivial, trivial, fun _ => by omega, fun h => absurd rfl (h _)⟩, h8 ▸ hl⟩
      · exact ⟨x, p.rest, hx, Ast2.lined_text (t := x) hl (by simp), hl, (Ast2.lined_suffix hl).2.1⟩
    have hshort : Ast2.ShortFrom (Ast2.nodesOnly (spelled content)) ↔ ∀ c ∈ kept, p.line ≤ c.lineNo + 1 := by
      rw [Ast2.short_iff hx hlx h1, hsp, Ast2.nodesOnly_content hm]
      have hnm : Ast2.NeatSeq ms := by
        have := neat_spelled content
        rw [hsp] at this
        exact (Ast2.neat_append this).1
      exact ⟨Ast2.short_same (Ast2.neat_same hnm h2 h3.symm), Ast2.short_same (Ast2.neat_same h2 hnm h3)⟩
    have hcount : Countable p.line (kept ++ textIf2 p.line p.pending) ↔ ∀ c ∈ kept, p.line ≤ c.lineNo + 1 := by
      constructor
      · rintro (h | ⟨_, h⟩) c hc
        · rw [(List.append_eq_nil_iff.1 h).1] at hc; cases hc
        · exact h c (List.mem_append_left _ hc)
      · intro h
        refine .inr ⟨hpl, fun c hc => ?_⟩
        rcases List.mem_append.1 hc with hc | hc
        · exact h c hc
        · unfold textIf2 at hc
          split at hc
          · cases hc
          · simp at hc; subst hc; simp [Ast2.Chunk.lineNo]
    rw [calm_maths]
    by_cases hc : Countable p.line (kept ++ textIf2 p.line p.pending)
    · obtain ⟨i, hi⟩ := yields_total 0 ((kept ++ textIf2 p.line p.pending).map (countFrom p.line))
      obtain ⟨o', ho'⟩ := yields_total b (.mk (p.line + p.pending.count '\n') (.text p.text) :: p.rest)
      have hf' : Formula ⟨l + ([] : Str).count '\n', [], r, ds⟩ [] k (kept ++ textIf2 p.line p.pending) p := hf
      rw [yields_unique hy (.formula (q := []) (by simp) hf' hc hi ho')]
      have g1 := ih1.seq (Ast2.neat_countFrom (Ast2.neat_content h2 h1)) (Ast2.lined_content hx hpl hlx h1 (hcount.1 hc)) (by
        rw [Ast2.atoms_countFrom, Ast2.atoms_append, atoms_textIf2, h3, hcont]) hi
      have g2 := ih2 _ _ _ _ _ h4 h5 (by omega) hlr h6 ho'
      rw [goes_block, g1, g2]
      simp [hshort.2 (hcount.1 hc)]
    · have hf' : Formula ⟨l + ([] : Str).count '\n', [], r, ds⟩ [] k (kept ++ textIf2 p.line p.pending) p := hf
      rw [yields_unique hy (.uncountable (q := []) (by simp) hf' hc)]
      constructor
      · rintro ⟨_, h⟩; cases h
      · intro h
        exact absurd (hcount.2 (hshort.1 (h.1.1 rfl))) hc

end LatexAst.Ast3
