import Verif.Proofs.Paste1
import Verif.Props.Retext

/-!
# How a stage-2 document is spelt at stage 1
-/

namespace LatexAst.Ast2
open Spec
open Ast1 (Matched)

mutual
/-- `SpeltV v w`: the nodes `w` of stage 1 are the node `v` of stage 2. -/
def SpeltV : ChunkVariant → List Ast1.ChunkVariant → Prop
  | .text t, w => w = [.text t]
  | .scope (.mk cs sv), w => ∃ ds, w = [.scope (.mk ds sv)] ∧ Spelt cs (ds.map Ast1.Chunk.variant)
  | .command (.mk label args), w => label ≠ chars!"begin" ∧ label ≠ chars!"end" ∧ ∃ args', w = [.command (.mk label args')] ∧ SpeltArgs args args'
  | .environment (.mk label args content pb pe), w => ∃ lab args' body, Ast1.displayChunks lab = label ∧ SpeltArgs args args' ∧ Spelt content body ∧
      w = .command (.mk chars!"begin" ((pb, .mk lab .curly) :: args')) :: (body ++ [.command (.mk chars!"end" [(pe, .mk lab .curly)])])
/-- The same for sequences. -/
def Spelt : List Chunk → List Ast1.ChunkVariant → Prop
  | [], w => w = []
  | .mk _ v :: cs, w => ∃ w1 w2, w = w1 ++ w2 ∧ SpeltV v w1 ∧ Spelt cs w2
/-- The same for arguments. -/
def SpeltArgs : List (Str × Scope) → List (Str × Ast1.Scope) → Prop
  | [], w => w = []
  | (p, .mk cs sv) :: r, w => ∃ ds r', w = (p, .mk ds sv) :: r' ∧ Spelt cs (ds.map Ast1.Chunk.variant) ∧ SpeltArgs r r'
end

theorem spelt_append {a b w} : Spelt (a ++ b) w ↔ ∃ w1 w2, w = w1 ++ w2 ∧ Spelt a w1 ∧ Spelt b w2 := by
  induction a generalizing w with
  | nil =>
    simp only [List.nil_append, Spelt]
    constructor
    · intro h; exact ⟨[], w, rfl, rfl, h⟩
    · rintro ⟨_, w2, rfl, rfl, h⟩; exact h
  | cons c a ih =>
    obtain ⟨l, v⟩ := c
    simp only [List.cons_append, Spelt, ih]
    constructor
    · rintro ⟨w1, _, rfl, h1, w2, w3, rfl, h2, h3⟩
      exact ⟨w1 ++ w2, w3, by simp, ⟨w1, w2, rfl, h1, h2⟩, h3⟩
    · rintro ⟨_, w3, rfl, ⟨w1, w2, rfl, h1, h2⟩, h3⟩
      exact ⟨w1, w2 ++ w3, by simp, h1, w2, w3, rfl, h2, h3⟩

theorem spelt_single {l v w} : Spelt [.mk l v] w ↔ SpeltV v w := by
  simp only [Spelt]
  constructor
  · rintro ⟨w1, _, rfl, h, rfl⟩; simpa using h
  · intro h; exact ⟨w, [], by simp, h, rfl⟩

mutual
theorem speltV_same : ∀ {v v' : ChunkVariant} {w}, RetextedV (fun t t' => t' = t) v v' → SpeltV v w → SpeltV v' w
  | .text t, .text t', w, h, hs => by simp only [RetextedV] at h; subst h; exact hs
  | .scope (.mk a v), .scope (.mk a' v'), w, h, hs => by
    simp only [RetextedV] at h; obtain ⟨rfl, h⟩ := h
    simp only [SpeltV] at hs ⊢
    obtain ⟨ds, h1, h2⟩ := hs
    exact ⟨ds, h1, spelt_same h h2⟩
  | .command (.mk l args), .command (.mk l' args'), w, h, hs => by
    simp only [RetextedV] at h; obtain ⟨rfl, h⟩ := h
    simp only [SpeltV] at hs ⊢
    obtain ⟨hb, he, ds, h1, h2⟩ := hs
    exact ⟨hb, he, ds, h1, speltArgs_same h h2⟩
  | .environment (.mk l args c pb pe), .environment (.mk l' args' c' pb' pe'), w, h, hs => by
    simp only [RetextedV] at h; obtain ⟨rfl, h3, h4, rfl, rfl⟩ := h
    simp only [SpeltV] at hs ⊢
    obtain ⟨lab, args0, body, k1, k2, k3, k4⟩ := hs
    exact ⟨lab, args0, body, k1, speltArgs_same h3 k2, spelt_same h4 k3, k4⟩
  | .text _, .scope _, _, h, _ | .text _, .command _, _, h, _ | .text _, .environment _, _, h, _
  | .scope (.mk ..), .text _, _, h, _ | .scope (.mk ..), .command _, _, h, _ | .scope (.mk ..), .environment _, _, h, _
  | .environment (.mk ..), .text _, _, h, _ | .environment (.mk ..), .command _, _, h, _ | .environment (.mk ..), .scope _, _, h, _
  | .command (.mk ..), .text _, _, h, _ | .command (.mk ..), .scope _, _, h, _ | .command (.mk ..), .environment _, _, h, _ => by simp [RetextedV] at h
theorem spelt_same : ∀ {a b : List Chunk} {w}, Retexted (fun t t' => t' = t) a b → Spelt a w → Spelt b w
  | [], [], _, _, hs => hs
  | .mk _ v :: cs, .mk _ v' :: cs', w, h, hs => by
    simp only [Retexted] at h
    simp only [Spelt] at hs ⊢
    obtain ⟨w1, w2, rfl, h1, h2⟩ := hs
    exact ⟨w1, w2, rfl, speltV_same h.1 h1, spelt_same h.2 h2⟩
  | [], _ :: _, _, h, _ | .mk .. :: _, [], _, h, _ => by simp [Retexted] at h
theorem speltArgs_same : ∀ {a b : List (Str × Scope)} {w}, RetextedArgs (fun t t' => t' = t) a b → SpeltArgs a w → SpeltArgs b w
  | [], [], _, _, hs => hs
  | (p, .mk x v) :: cs, (p', .mk x' v') :: cs', w, h, hs => by
    simp only [RetextedArgs] at h
    obtain ⟨rfl, rfl, h1, h2⟩ := h
    simp only [SpeltArgs] at hs ⊢
    obtain ⟨ds, r', rfl, h3, h4⟩ := hs
    exact ⟨ds, r', rfl, spelt_same h1 h3, speltArgs_same h2 h4⟩
  | [], _ :: _, _, h, _ | (_, .mk ..) :: _, [], _, h, _ => by simp [RetextedArgs] at h
end

/-- What the nodes print. -/
def printed (w : List Ast1.ChunkVariant) : Str := w.flatMap Ast1.ChunkVariant.display

theorem printed_variants (d : List Ast1.Chunk) : printed (d.map Ast1.Chunk.variant) = Ast1.displayChunks d := by
  induction d with
  | nil => rfl
  | cons c d ih =>
    obtain ⟨l, v⟩ := c
    rw [Ast1.displayChunks_cons, ← ih]
    simp [printed, Ast1.Chunk.display, Ast1.Chunk.variant]

mutual
theorem speltV_printed : ∀ {v : ChunkVariant} {w}, SpeltV v w → printed w = v.display
  | .text t, w, h => by simp only [SpeltV] at h; subst h; simp [printed, Ast1.ChunkVariant.display, ChunkVariant.display]
  | .scope (.mk cs sv), w, h => by
    simp only [SpeltV] at h
    obtain ⟨ds, rfl, h⟩ := h
    have := spelt_printed h
    rw [printed_variants] at this
    simp [printed, Ast1.ChunkVariant.display, ChunkVariant.display, Ast1.Scope.display, Scope.display, this]
  | .command (.mk label args), w, h => by
    simp only [SpeltV] at h
    obtain ⟨_, _, args', rfl, h⟩ := h
    simp [printed, Ast1.ChunkVariant.display, ChunkVariant.display, Ast1.Command.display, Command.display, speltArgs_printed h]
  | .environment (.mk label args content pb pe), w, h => by
    simp only [SpeltV] at h
    obtain ⟨lab, args', body, h1, h2, h3, rfl⟩ := h
    have := spelt_printed h3
    have e : printed (.command (.mk chars!"begin" ((pb, .mk lab .curly) :: args')) :: (body ++ [.command (.mk chars!"end" [(pe, .mk lab .curly)])])) =
        (Ast1.Command.mk chars!"begin" ((pb, .mk lab .curly) :: args')).display ++ (printed body ++ (Ast1.Command.mk chars!"end" [(pe, .mk lab .curly)]).display) := by
      simp [printed, Ast1.ChunkVariant.display]
    rw [e, this]
    simp [ChunkVariant.display, Ast1.Command.display, Ast1.displayArgs, Ast1.Scope.display, Environment.display, speltArgs_printed h2,
      ScopeVariant.opening, ScopeVariant.closing, h1]
theorem spelt_printed : ∀ {cs : List Chunk} {w}, Spelt cs w → printed w = displayChunks cs
  | [], w, h => by simp only [Spelt] at h; subst h; rfl
  | .mk l v :: cs, w, h => by
    simp only [Spelt] at h
    obtain ⟨w1, w2, rfl, h1, h2⟩ := h
    have h3 := speltV_printed h1
    have h4 := spelt_printed h2
    rw [show printed (w1 ++ w2) = printed w1 ++ printed w2 by simp [printed], h3, h4]
    simp [displayChunks, Chunk.display]
theorem speltArgs_printed : ∀ {cs : List (Str × Scope)} {w}, SpeltArgs cs w → Ast1.displayArgs w = displayArgs cs
  | [], w, h => by simp only [SpeltArgs] at h; subst h; rfl
  | (p, .mk cs sv) :: r, w, h => by
    simp only [SpeltArgs] at h
    obtain ⟨ds, r', rfl, h1, h2⟩ := h
    have := spelt_printed h1
    rw [printed_variants] at this
    simp [Ast1.displayArgs, displayArgs, Ast1.Scope.display, Scope.display, this, speltArgs_printed h2]
end

/-! ## What converts is spelt so -/

theorem speltArgs_outcome : ∀ {items : List ((Str × Ast1.Scope) × Outcome)} {args},
    (∀ x ∈ items, ∀ e, x.2 = .ok e → Spelt e (x.1.2.chunks.map Ast1.Chunk.variant)) → argOutcome items = .ok args → SpeltArgs args (items.map (·.1))
  | [], args, _, h => by simp only [argOutcome, Except.ok.injEq] at h; subst h; rfl
  | ((p, .mk inner v), o) :: items, args, hp, h => by
    cases o with
    | error e => simp [argOutcome] at h
    | ok x =>
      simp only [argOutcome] at h
      cases h' : argOutcome items with
      | error e => simp [h'] at h
      | ok rest =>
        simp only [h', Except.ok.injEq] at h
        subst h
        simp only [SpeltArgs, Ast1.Scope.variant]
        exact ⟨inner, items.map (·.1), rfl, hp _ (.head _) x rfl, speltArgs_outcome (fun x hx => hp x (.tail _ hx)) h'⟩

theorem map_renumber (k : Nat) (d : List Ast1.Chunk) : (d.map (renumber k)).map Ast1.Chunk.variant = d.map Ast1.Chunk.variant := by
  rw [List.map_map]; congr 1; funext c; obtain ⟨l, v⟩ := c; rfl

theorem Converts.spelt {d o} (h : Converts d o) : ∀ e, o = .ok e → Spelt e (d.map Ast1.Chunk.variant) := by
  induction h with
  | nil => intro e he; injection he with he; subst he; rfl
  | @text l t cs o _ ih =>
    intro e he
    cases o with
    | error x => simp [Outcome.after] at he
    | ok rest =>
      simp only [Outcome.after, Except.ok.injEq] at he
      subst he
      exact ⟨[.text t], _, rfl, by simp [SpeltV], ih _ rfl⟩
  | @scope l inner sv cs i o _ _ ihi ih =>
    intro e he
    cases i with
    | error x => simp [scopeOutcome] at he
    | ok x =>
    cases o with
    | error x => simp [scopeOutcome, Outcome.after] at he
    | ok rest =>
      simp only [scopeOutcome, Outcome.after, Except.ok.injEq] at he
      subst he
      exact ⟨[.scope (.mk inner sv)], _, rfl, by simpa [SpeltV] using ihi _ rfl, ih _ rfl⟩
  | @command l label cs o items hb he0 _ _ ihi ih =>
    intro e he
    cases ha : argOutcome items with
    | error x => simp [commandOutcome, ha] at he
    | ok args =>
    cases o with
    | error x => simp [commandOutcome, ha, Outcome.after] at he
    | ok rest =>
      simp only [commandOutcome, ha, Outcome.after, Except.ok.injEq] at he
      subst he
      refine ⟨[.command (.mk label (items.map (·.1)))], _, rfl, ?_, ih _ rfl⟩
      simp only [SpeltV]
      exact ⟨hb, he0, _, rfl, speltArgs_outcome ihi ha⟩
  | @environment l p lab body l' pe cs i o items _ _ _ _ ihi ihb ih =>
    intro e he
    cases ha : argOutcome items with
    | error x => simp [environmentOutcome, ha] at he
    | ok args =>
    cases i with
    | error x => simp [environmentOutcome, ha] at he
    | ok x =>
    cases o with
    | error x => simp [environmentOutcome, ha, Outcome.after] at he
    | ok rest =>
      simp only [environmentOutcome, ha, Outcome.after, Except.ok.injEq] at he
      subst he
      have hb := ihb _ rfl
      rw [map_renumber] at hb
      refine ⟨.command (.mk chars!"begin" ((p, .mk lab .curly) :: items.map (·.1))) :: (body.map Ast1.Chunk.variant ++ [.command (.mk chars!"end" [(pe, .mk lab .curly)])]),
        cs.map Ast1.Chunk.variant, by simp [Ast1.Chunk.variant], ?_, ih _ rfl⟩
      simp only [SpeltV]
      exact ⟨lab, _, _, rfl, speltArgs_outcome ihi ha, hb, rfl⟩
  | bad => intro e he; simp at he
  | badInside => intro e he; simp at he
  | unclosed => intro e he; simp at he

/-! ## What is spelt so converts -/

/-- The chunks have these nodes, renumbered inside, on any lines. -/
def Renumd (w : List Ast1.ChunkVariant) (d2 : List Ast1.Chunk) : Prop := d2.map Ast1.Chunk.variant = w.map fun v => v.renum

theorem renumd_cons {v w d2} (h : Renumd (v :: w) d2) : ∃ l2 cs2, d2 = .mk l2 v.renum :: cs2 ∧ Renumd w cs2 := by
  unfold Renumd at h
  cases d2 with
  | nil => simp at h
  | cons c cs2 =>
    obtain ⟨l2, v2⟩ := c
    simp only [List.map_cons, List.cons.injEq, Ast1.Chunk.variant] at h
    exact ⟨l2, cs2, by rw [h.1], h.2⟩

theorem renumd_append {a b d2} (h : Renumd (a ++ b) d2) : ∃ a2 b2, d2 = a2 ++ b2 ∧ Renumd a a2 ∧ Renumd b b2 := by
  unfold Renumd at *
  rw [List.map_append, List.map_eq_append_iff] at h
  obtain ⟨a2, b2, rfl, h1, h2⟩ := h
  exact ⟨a2, b2, rfl, h1, h2⟩

theorem renumd_nil {d2} (h : Renumd [] d2) : d2 = [] := by
  unfold Renumd at h; simpa using h

theorem renumd_seq (d : List Ast1.Chunk) (p n) : Renumd (d.map Ast1.Chunk.variant) (Ast1.renumSeq p n d) := by
  have := relined_renum d p n
  unfold Relined at this; unfold Renumd; rw [this]; simp

theorem renumd_renumber {w d k} (h : Renumd w d) : Renumd w (d.map (renumber k)) := by
  unfold Renumd at *; rw [map_renumber, h]

mutual
theorem speltV_converts : ∀ {v : ChunkVariant} {w}, SpeltV v w → ∀ (d2 : List Ast1.Chunk) (l : Nat), Renumd w d2 → ∀ r rest, Matched r → Converts r (.ok rest) →
    Matched (d2 ++ r) ∧ ∃ l2 v2, Converts (d2 ++ r) (.ok (.mk l2 v2 :: rest)) ∧ RetextedV (fun t t' => t' = t) v v2
  | .text t, w, h, d2, l, hd, r, rest, hr, hc => by
    simp only [SpeltV] at h; subst h
    obtain ⟨l2, cs2, rfl, hn⟩ := renumd_cons hd
    obtain rfl := renumd_nil hn
    exact ⟨.other (notDelimiter_renum (l := l) (by simp)) hr, l2, .text t, .text hc, by simp [RetextedV]⟩
  | .scope (.mk cs sv), w, h, d2, l, hd, r, rest, hr, hc => by
    simp only [SpeltV] at h
    obtain ⟨ds, rfl, h⟩ := h
    obtain ⟨l2, cs2, rfl, hn⟩ := renumd_cons hd
    obtain rfl := renumd_nil hn
    obtain ⟨_, x2, m5, m6⟩ := spelt_converts h _ (renumd_seq ds .none 1)
    refine ⟨.other (notDelimiter_renum (l := l) (by simp)) hr, l2, .scope (.mk x2 sv), ?_, by simpa [RetextedV] using m6⟩
    have := Converts.scope (l := l2) (sv := sv) m5 hc
    simpa [Ast1.ChunkVariant.renum, scopeOutcome, Outcome.after] using this
  | .command (.mk label args), w, h, d2, l, hd, r, rest, hr, hc => by
    simp only [SpeltV] at h
    obtain ⟨hb, he, args', rfl, h⟩ := h
    obtain ⟨l2, cs2, rfl, hn⟩ := renumd_cons hd
    obtain rfl := renumd_nil hn
    obtain ⟨items2, m3, m4, args2, m5, m6⟩ := speltArgs_converts h
    refine ⟨.other (notDelimiter_renum (l := l) (by rintro _ _ h; cases h; exact ⟨hb, he⟩)) hr, l2, .command (.mk label args2), ?_, by simpa [RetextedV] using m6⟩
    have := Converts.command (l := l2) (items := items2) hb he m4 hc
    simpa [Ast1.ChunkVariant.renum, commandOutcome, Outcome.after, m3, m5] using this
  | .environment (.mk label args content pb pe), w, h, d2, l, hd, r, rest, hr, hc => by
    simp only [SpeltV] at h
    obtain ⟨lab, args', body, rfl, h2, h3, rfl⟩ := h
    obtain ⟨l2, cs2, rfl, hn⟩ := renumd_cons hd
    obtain ⟨b2, r2, rfl, hb, hn2⟩ := renumd_append hn
    obtain ⟨l3, cs3, rfl, hn3⟩ := renumd_cons hn2
    obtain rfl := renumd_nil hn3
    obtain ⟨n4, _⟩ := spelt_converts h3 b2 hb
    obtain ⟨items2, m3, m4, args2, m5, m6⟩ := speltArgs_converts h2
    simp only [Ast1.ChunkVariant.renum, Ast1.renumArgs, List.cons_append, List.append_assoc, List.nil_append]
    refine ⟨.env (lab := Ast1.renumSeq .none 1 lab) ⟨_, _, rfl⟩ n4 ⟨_, rfl⟩ hr, ?_⟩
    obtain ⟨_, x2, n5, n6⟩ := spelt_converts h3 _ (renumd_renumber (k := endOfBegin l2 ((pb, .mk (Ast1.renumSeq .none 1 lab) .curly) :: items2.map (·.1))) hb)
    have := Converts.environment (l := l2) (l' := l3) (p := pb) (pe := pe) (lab := Ast1.renumSeq .none 1 lab) (items := items2) n4 m4 n5 hc
    rw [m3] at this
    simp only [environmentOutcome, m5, Outcome.after, Ast1.display_renumSeq] at this
    refine ⟨_, _, this, ?_⟩
    simp only [RetextedV, true_and, and_true]
    exact ⟨m6, n6⟩
theorem spelt_converts : ∀ {e : List Chunk} {w}, Spelt e w → ∀ d2, Renumd w d2 →
    Matched d2 ∧ ∃ e2, Converts d2 (.ok e2) ∧ Retexted (fun t t' => t' = t) e e2
  | [], w, h, d2, hd => by
    simp only [Spelt] at h; subst h
    obtain rfl := renumd_nil hd
    exact ⟨.nil, [], .nil, by simp [Retexted]⟩
  | .mk l v :: cs, w, h, d2, hd => by
    simp only [Spelt] at h
    obtain ⟨w1, w2, rfl, h1, h2⟩ := h
    obtain ⟨a2, b2, rfl, k1, k2⟩ := renumd_append hd
    obtain ⟨m1, e2, m2, m3⟩ := spelt_converts h2 _ k2
    obtain ⟨n1, l2, v2, n2, n3⟩ := speltV_converts h1 a2 l k1 b2 e2 m1 m2
    exact ⟨n1, _, n2, by simp only [Retexted]; exact ⟨n3, m3⟩⟩
theorem speltArgs_converts : ∀ {args : List (Str × Scope)} {w}, SpeltArgs args w →
    ∃ items2 : List ((Str × Ast1.Scope) × Outcome), items2.map (·.1) = Ast1.renumArgs w ∧
        (∀ x ∈ items2, Converts x.1.2.chunks x.2) ∧ ∃ args2, argOutcome items2 = .ok args2 ∧ RetextedArgs (fun t t' => t' = t) args args2
  | [], w, h => by
    simp only [SpeltArgs] at h; subst h
    exact ⟨[], rfl, (fun x hx => by cases hx), [], rfl, by simp [RetextedArgs]⟩
  | (p, .mk cs sv) :: r, w, h => by
    simp only [SpeltArgs] at h
    obtain ⟨ds, r', rfl, h1, h2⟩ := h
    obtain ⟨items2, k3, k4, args2, k5, k6⟩ := speltArgs_converts h2
    obtain ⟨_, e2, m4, m5⟩ := spelt_converts h1 _ (renumd_seq ds .none 1)
    refine ⟨((p, .mk (Ast1.renumSeq .none 1 ds) sv), .ok e2) :: items2, by simp [Ast1.renumArgs, k3], ?_, (p, .mk e2 sv) :: args2, ?_, ?_⟩
    · intro y hy
      cases hy with
      | head => exact m4
      | tail _ hy => exact k4 y hy
    · simp [argOutcome, k5, Ast1.Scope.variant]
    · simpa [RetextedArgs, k6] using m5
end

/-- What survives at stage 2, in terms of stage 1. -/
theorem survives_spelt {e : Document} : Survives e ↔ ∃ d, Ast1.Good d ∧ Spelt e (d.map Ast1.Chunk.variant) := by
  constructor
  · rintro ⟨e0, h0, hs⟩
    obtain ⟨d0, hd0, ht0⟩ := fromStr_parts h0
    have hdisp : Ast1.displayChunks d0 = displayChunks e := by rw [← display_tryFrom ht0, same_display hs]
    have hcan : Ast1.Canonical d0 := (Ast1.C03_exact d0).1 (by rw [hdisp]; exact hd0)
    refine ⟨d0, fun lv hl => (hcan lv hl).1, ?_⟩
    have := (((C53_parsed _ d0 hd0).1 e0).1 h0).spelt e0 rfl
    exact spelt_same (retexted_both (S := fun t t' => t' = t) (T := fun t t' => t' = t) (by rintro t t1 t2 rfl rfl; rfl) hs (same_refl e)) this
  · rintro ⟨d, hg, hs⟩
    have hp := Ast1.printable_parse hg
    rw [← printed_variants, spelt_printed hs] at hp
    obtain ⟨_, e2, h4, h5⟩ := spelt_converts hs _ (renumd_seq d .none 1)
    exact ⟨e2, ((C53_parsed _ _ hp).1 e2).2 h4, h5⟩

end LatexAst.Ast2
