import Verif.Proofs.Retext1
import Verif.Props.Conversion

/-! # Replacing texts, stage 2 -/

namespace LatexAst.Ast2
open Spec
open Ast1 (Matched)

variable {R S T : Str → Str → Prop}

mutual
theorem sameV_display : ∀ {v v' : ChunkVariant}, RetextedV (fun t t' => t' = t) v v' → v'.display = v.display
  | .text t, .text t', h => by simp only [RetextedV] at h; simp [h]
  | .scope (.mk a v), .scope (.mk a' v'), h => by
    simp only [RetextedV] at h
    simp [ChunkVariant.display, Scope.display, h.1, same_display h.2]
  | .command (.mk l args), .command (.mk l' args'), h => by
    simp only [RetextedV] at h
    simp [ChunkVariant.display, Command.display, h.1, sameArgs_display h.2]
  | .environment (.mk l args c pb pe), .environment (.mk l' args' c' pb' pe'), h => by
    simp only [RetextedV] at h
    obtain ⟨h1, h2, h3, h4, h5⟩ := h
    simp [ChunkVariant.display, Environment.display, h1, sameArgs_display h2, same_display h3, h4, h5]
  | .text _, .scope _, h | .text _, .command _, h | .text _, .environment _, h
  | .scope (.mk ..), .text _, h | .scope (.mk ..), .command _, h | .scope (.mk ..), .environment _, h
  | .environment (.mk ..), .text _, h | .environment (.mk ..), .command _, h | .environment (.mk ..), .scope _, h
  | .command (.mk ..), .text _, h | .command (.mk ..), .scope _, h | .command (.mk ..), .environment _, h => by simp [RetextedV] at h
theorem same_display : ∀ {a b : List Chunk}, Retexted (fun t t' => t' = t) a b → displayChunks b = displayChunks a
  | [], [], _ => rfl
  | .mk _ v :: cs, .mk _ v' :: cs', h => by
    simp only [Retexted] at h
    simp [displayChunks, Chunk.display, sameV_display h.1, same_display h.2]
  | [], _ :: _, h | .mk .. :: _, [], h => by simp [Retexted] at h
theorem sameArgs_display : ∀ {a b : List (Str × Scope)}, RetextedArgs (fun t t' => t' = t) a b → displayArgs b = displayArgs a
  | [], [], _ => rfl
  | (p, .mk x v) :: cs, (p', .mk x' v') :: cs', h => by
    simp only [RetextedArgs] at h
    simp [displayArgs, Scope.display, h.1, h.2.1, same_display h.2.2.1, sameArgs_display h.2.2.2]
  | [], _ :: _, h | (_, .mk ..) :: _, [], h => by simp [RetextedArgs] at h
end

mutual
/-- Two replacements of the same document. -/
theorem retextedV_both (hT : ∀ t t1 t2, R t t1 → S t t2 → T t1 t2) : ∀ {v v1 v2 : ChunkVariant}, RetextedV R v v1 → RetextedV S v v2 → RetextedV T v1 v2
  | .text t, .text t1, .text t2, h1, h2 => by simp only [RetextedV] at *; exact hT _ _ _ h1 h2
  | .scope (.mk a v), .scope (.mk a1 v1), .scope (.mk a2 v2), h1, h2 => by
    simp only [RetextedV] at *
    exact ⟨by rw [h1.1, h2.1], retexted_both hT h1.2 h2.2⟩
  | .command (.mk l args), .command (.mk l1 args1), .command (.mk l2 args2), h1, h2 => by
    simp only [RetextedV] at *
    exact ⟨by rw [h1.1, h2.1], retextedArgs_both hT h1.2 h2.2⟩
  | .environment (.mk l args c pb pe), .environment (.mk l1 args1 c1 pb1 pe1), .environment (.mk l2 args2 c2 pb2 pe2), h1, h2 => by
    simp only [RetextedV] at *
    exact ⟨by rw [h1.1, h2.1], retextedArgs_both hT h1.2.1 h2.2.1, retexted_both hT h1.2.2.1 h2.2.2.1, by rw [h1.2.2.2.1, h2.2.2.2.1],
      by rw [h1.2.2.2.2, h2.2.2.2.2]⟩
  | .text _, .scope _, _, h, _ | .text _, .command _, _, h, _ | .text _, .environment _, _, h, _
  | .scope (.mk ..), .text _, _, h, _ | .scope (.mk ..), .command _, _, h, _ | .scope (.mk ..), .environment _, _, h, _
  | .environment (.mk ..), .text _, _, h, _ | .environment (.mk ..), .command _, _, h, _ | .environment (.mk ..), .scope _, _, h, _
  | .command (.mk ..), .text _, _, h, _ | .command (.mk ..), .scope _, _, h, _ | .command (.mk ..), .environment _, _, h, _
  | .text _, _, .scope _, _, h | .text _, _, .command _, _, h | .text _, _, .environment _, _, h
  | .scope (.mk ..), _, .text _, _, h | .scope (.mk ..), _, .command _, _, h | .scope (.mk ..), _, .environment _, _, h
  | .environment (.mk ..), _, .text _, _, h | .environment (.mk ..), _, .command _, _, h | .environment (.mk ..), _, .scope _, _, h
  | .command (.mk ..), _, .text _, _, h | .command (.mk ..), _, .scope _, _, h | .command (.mk ..), _, .environment _, _, h => by
    simp [RetextedV] at h
theorem retexted_both (hT : ∀ t t1 t2, R t t1 → S t t2 → T t1 t2) : ∀ {v v1 v2 : List Chunk}, Retexted R v v1 → Retexted S v v2 → Retexted T v1 v2
  | [], [], [], _, _ => by simp [Retexted]
  | .mk _ v :: cs, .mk _ v1 :: cs1, .mk _ v2 :: cs2, h1, h2 => by
    simp only [Retexted] at *
    exact ⟨retextedV_both hT h1.1 h2.1, retexted_both hT h1.2 h2.2⟩
  | [], _ :: _, _, h, _ | .mk .. :: _, [], _, h, _ | [], _, _ :: _, _, h | .mk .. :: _, _, [], _, h => by simp [Retexted] at h
theorem retextedArgs_both (hT : ∀ t t1 t2, R t t1 → S t t2 → T t1 t2) : ∀ {v v1 v2 : List (Str × Scope)}, RetextedArgs R v v1 →
    RetextedArgs S v v2 → RetextedArgs T v1 v2
  | [], [], [], _, _ => by simp [RetextedArgs]
  | (p, .mk x v) :: cs, (p1, .mk x1 v1) :: cs1, (p2, .mk x2 v2) :: cs2, h1, h2 => by
    simp only [RetextedArgs] at *
    exact ⟨by rw [h1.1, h2.1], by rw [h1.2.1, h2.2.1], retexted_both hT h1.2.2.1 h2.2.2.1, retextedArgs_both hT h1.2.2.2 h2.2.2.2⟩
  | [], _ :: _, _, h, _ | (_, .mk ..) :: _, [], _, h, _ | [], _, _ :: _, _, h | (_, .mk ..) :: _, _, [], _, h => by simp [RetextedArgs] at h
end

/-- The chunks have the variants of `d1`, renumbered inside, on any lines. -/
def Relined (d1 d2 : List Ast1.Chunk) : Prop := d2.map Ast1.Chunk.variant = d1.map fun c => c.variant.renum

theorem relined_renum : ∀ (cs : List Ast1.Chunk) (p n), Relined cs (Ast1.renumSeq p n cs)
  | [], _, _ => by simp [Relined, Ast1.renumSeq]
  | .mk _ v :: cs, _, _ => by
    have := relined_renum cs
    unfold Relined at *
    simp [Ast1.renumSeq, Ast1.Chunk.variant, this]

theorem relined_cons {l v cs d2} (h : Relined (.mk l v :: cs) d2) : ∃ l2 cs2, d2 = .mk l2 v.renum :: cs2 ∧ Relined cs cs2 := by
  unfold Relined at h
  cases d2 with
  | nil => simp at h
  | cons c cs2 =>
    obtain ⟨l2, v2⟩ := c
    simp only [List.map_cons, List.cons.injEq, Ast1.Chunk.variant] at h
    exact ⟨l2, cs2, by rw [h.1], h.2⟩

theorem relined_append {a b d2} (h : Relined (a ++ b) d2) : ∃ a2 b2, d2 = a2 ++ b2 ∧ Relined a a2 ∧ Relined b b2 := by
  unfold Relined at *
  rw [List.map_append, List.map_eq_append_iff] at h
  obtain ⟨a2, b2, rfl, h1, h2⟩ := h
  exact ⟨a2, b2, rfl, h1, h2⟩

theorem relined_renumber {a b k} (h : Relined a b) : Relined a (b.map (renumber k)) := by
  unfold Relined at *
  rw [← h, List.map_map]
  congr 1
  funext c
  obtain ⟨l, v⟩ := c
  rfl

/-- What replacing texts in the result of a conversion comes from. -/
def Pulls (d : List Ast1.Chunk) (o : Outcome) : Prop := ∀ e e1, o = .ok e → Retexted Replaces e e1 →
  ∃ d1, Ast1.Retexted Replaces d d1 ∧ Ast1.displayChunks d1 = displayChunks e1 ∧
    ∀ d2, Relined d1 d2 → Matched d2 ∧ ∃ e2, Converts d2 (.ok e2) ∧ SameButLines e1 e2

theorem pulls_args : ∀ {items : List ((Str × Ast1.Scope) × Outcome)} {args args1}, (∀ x ∈ items, Pulls x.1.2.chunks x.2) →
    argOutcome items = .ok args → RetextedArgs Replaces args args1 → ∃ a1, Ast1.RetextedArgs Replaces (items.map (·.1)) a1 ∧
      Ast1.displayArgs a1 = displayArgs args1 ∧ ∃ items2 : List ((Str × Ast1.Scope) × Outcome), items2.map (·.1) = Ast1.renumArgs a1 ∧
        (∀ x ∈ items2, Converts x.1.2.chunks x.2) ∧ ∃ args2, argOutcome items2 = .ok args2 ∧ RetextedArgs (fun t t' => t' = t) args1 args2
  | [], args, args1, _, h, hr => by
    simp only [argOutcome, Except.ok.injEq] at h
    subst h
    cases args1 with
    | cons => simp [RetextedArgs] at hr
    | nil => exact ⟨[], by simp [Ast1.RetextedArgs], rfl, [], rfl, (fun x hx => by cases hx), [], rfl, by simp [RetextedArgs]⟩
  | ((p, .mk inner v), o) :: items, args, args1, hp, h, hr => by
    cases o with
    | error e => simp [argOutcome] at h
    | ok x =>
      simp only [argOutcome] at h
      cases h' : argOutcome items with
      | error e => simp [h'] at h
      | ok rest =>
        simp only [h', Except.ok.injEq] at h
        subst h
        match args1, hr with
        | [], hr => simp [RetextedArgs] at hr
        | (p1, .mk x1 v1) :: rest1, hr =>
          simp only [RetextedArgs, Ast1.Scope.variant] at hr
          obtain ⟨rfl, rfl, h3, h4⟩ := hr
          obtain ⟨a1, k1, k2, items2, k3, k4, args2, k5, k6⟩ := pulls_args (fun x hx => hp x (.tail _ hx)) h' h4
          obtain ⟨d1, m1, m2, m3⟩ := hp _ (.head _) x x1 rfl h3
          obtain ⟨_, e2, m4, m5⟩ := m3 _ (relined_renum d1 .none 1)
          refine ⟨(p1, .mk d1 v1) :: a1, by simpa [Ast1.RetextedArgs, k1, Ast1.Scope.chunks] using m1, ?_, ((p1, .mk (Ast1.renumSeq .none 1 d1) v1), .ok e2) :: items2, ?_, ?_, (p1, .mk e2 v1) :: args2, ?_, ?_⟩
          · simp [Ast1.displayArgs, displayArgs, Ast1.Scope.display, Scope.display, m2, k2, Ast1.Scope.variant]
          · simp [Ast1.renumArgs, k3]
          · intro y hy
            cases hy with
            | head => exact m4
            | tail _ hy => exact k4 y hy
          · simp [argOutcome, k5, Ast1.Scope.variant]
          · simpa [RetextedArgs, k6, Ast1.Scope.variant, SameButLines] using m5

theorem notDelimiter_renum {l l2 : Nat} {v : Ast1.ChunkVariant} (h : ∀ label args, v = .command (.mk label args) → label ≠ chars!"begin" ∧ label ≠ chars!"end") :
    ¬ (Ast1.Chunk.mk l2 v.renum).IsDelimiter := by
  rintro ⟨label, args, h1, h2⟩
  simp only [Ast1.Chunk.variant] at h1
  obtain ⟨args0, rfl, _⟩ := Ast1.renum_command h1.symm
  have := h _ _ rfl
  rcases h2 with h2 | h2
  · exact this.1 h2
  · exact this.2 h2

theorem retexted_renumber {k : Nat} : ∀ {body b1 : List Ast1.Chunk}, Ast1.Retexted R (body.map (renumber k)) b1 → Ast1.Retexted R body b1
  | [], b1, h => by simpa using h
  | .mk _ _ :: _, [], h => by simp [renumber, Ast1.Retexted] at h
  | .mk _ _ :: body, .mk _ _ :: b1, h => by
    simp only [renumber, List.map_cons, Ast1.Retexted] at h ⊢
    exact ⟨h.1, retexted_renumber h.2⟩

theorem Converts.pulls {d o} (h : Converts d o) : Pulls d o := by
  induction h with
  | nil =>
    intro e e1 he hr
    injection he with he; subst he
    cases e1 with
    | cons => simp [Retexted] at hr
    | nil =>
      refine ⟨[], by simp [Ast1.Retexted], rfl, fun d2 h2 => ?_⟩
      simp only [Relined, List.map_nil, List.map_eq_nil_iff] at h2
      subst h2
      exact ⟨.nil, [], .nil, by simp [SameButLines, Retexted]⟩
  | @text l t cs o _ ih =>
    intro e e1 he hr
    cases o with
    | error x => simp [Outcome.after] at he
    | ok rest =>
      simp only [Outcome.after, Except.ok.injEq] at he
      subst he
      match e1, hr with
      | [], hr => simp [Retexted] at hr
      | .mk l1 v1 :: rest1, hr =>
        simp only [Retexted] at hr
        obtain ⟨hv0, hrr⟩ := hr
        match v1, hv0 with
        | .text t1, hv =>
          obtain ⟨d1, k1, k2, k3⟩ := ih _ _ rfl hrr
          refine ⟨.mk l (.text t1) :: d1, by simpa [Ast1.Retexted, Ast1.RetextedV, k1, RetextedV] using hv, ?_, fun d2 h2 => ?_⟩
          · simp [Ast1.displayChunks, displayChunks, Ast1.Chunk.display, Chunk.display, Ast1.ChunkVariant.display, ChunkVariant.display, k2]
          · obtain ⟨l2, cs2, rfl, hq⟩ := relined_cons h2
            obtain ⟨k4, e2, k5, k6⟩ := k3 _ hq
            refine ⟨.other (notDelimiter_renum (l := l) (by simp)) k4, .mk l2 (.text t1) :: e2, ?_, ?_⟩
            · exact .text k5
            · simpa [SameButLines, Retexted, RetextedV] using k6
        | .scope _, hv | .command _, hv | .environment _, hv => simp [RetextedV] at hv
  | @scope l inner sv cs i o _ _ ihi ih =>
    intro e e1 he hr
    cases i with
    | error x => simp [scopeOutcome] at he
    | ok x =>
    cases o with
    | error x => simp [scopeOutcome, Outcome.after] at he
    | ok rest =>
      simp only [scopeOutcome, Outcome.after, Except.ok.injEq] at he
      subst he
      match e1, hr with
      | [], hr => simp [Retexted] at hr
      | .mk l1 v1 :: rest1, hr =>
        simp only [Retexted] at hr
        obtain ⟨hv0, hrr⟩ := hr
        match v1, hv0 with
        | .scope (.mk x1 sv1), hv =>
          simp only [RetextedV] at hv
          obtain ⟨rfl, hvv⟩ := hv
          obtain ⟨d1, k1, k2, k3⟩ := ih _ _ rfl hrr
          obtain ⟨c1, m1, m2, m3⟩ := ihi _ _ rfl hvv
          refine ⟨.mk l (.scope (.mk c1 sv1)) :: d1, by simp [Ast1.Retexted, Ast1.RetextedV, k1, m1], ?_, fun d2 h2 => ?_⟩
          · simp [Ast1.displayChunks, displayChunks, Ast1.Chunk.display, Chunk.display, Ast1.ChunkVariant.display, ChunkVariant.display, k2,
              Ast1.Scope.display, Scope.display, m2]
          · obtain ⟨l2, cs2, rfl, hq⟩ := relined_cons h2
            obtain ⟨k4, e2, k5, k6⟩ := k3 _ hq
            obtain ⟨_, x2, m5, m6⟩ := m3 _ (relined_renum c1 .none 1)
            refine ⟨.other (notDelimiter_renum (l := l) (by simp)) k4, .mk l2 (.scope (.mk x2 sv1)) :: e2, ?_, ?_⟩
            · have := Converts.scope (l := l2) (sv := sv1) m5 k5
              simpa [Ast1.ChunkVariant.renum, scopeOutcome, Outcome.after] using this
            · simp only [SameButLines, Retexted, RetextedV, true_and] at m6 k6 ⊢
              exact ⟨m6, k6⟩
        | .text _, hv | .command _, hv | .environment _, hv => simp [RetextedV] at hv
  | @command l label cs o items hb he0 _ _ ihi ih =>
    intro e e1 he hr
    cases ha : argOutcome items with
    | error x => simp [commandOutcome, ha] at he
    | ok args =>
    cases o with
    | error x => simp [commandOutcome, ha, Outcome.after] at he
    | ok rest =>
      simp only [commandOutcome, ha, Outcome.after, Except.ok.injEq] at he
      subst he
      match e1, hr with
      | [], hr => simp [Retexted] at hr
      | .mk l1 v1 :: rest1, hr =>
        simp only [Retexted] at hr
        obtain ⟨hv0, hrr⟩ := hr
        match v1, hv0 with
        | .command (.mk label1 args1), hv =>
          simp only [RetextedV] at hv
          obtain ⟨rfl, hvv⟩ := hv
          obtain ⟨d1, k1, k2, k3⟩ := ih _ _ rfl hrr
          obtain ⟨a1, m1, m2, items2, m3, m4, args2, m5, m6⟩ := pulls_args ihi ha hvv
          refine ⟨.mk l (.command (.mk label1 a1)) :: d1, by simp [Ast1.Retexted, Ast1.RetextedV, k1, m1], ?_, fun d2 h2 => ?_⟩
          · simp [Ast1.displayChunks, displayChunks, Ast1.Chunk.display, Chunk.display, Ast1.ChunkVariant.display, ChunkVariant.display, k2,
              Ast1.Command.display, Command.display, m2]
          · obtain ⟨l2, cs2, rfl, hq⟩ := relined_cons h2
            obtain ⟨k4, e2, k5, k6⟩ := k3 _ hq
            refine ⟨.other (notDelimiter_renum (l := l) (by rintro _ _ h; cases h; exact ⟨hb, he0⟩)) k4, .mk l2 (.command (.mk label1 args2)) :: e2, ?_, ?_⟩
            · have := Converts.command (l := l2) (items := items2) hb he0 m4 k5
              simpa [Ast1.ChunkVariant.renum, commandOutcome, Outcome.after, m3, m5] using this
            · simp only [SameButLines, Retexted, RetextedV, true_and] at k6 ⊢
              exact ⟨m6, k6⟩
        | .text _, hv | .scope _, hv | .environment _, hv => simp [RetextedV] at hv
  | @environment l p lab body l' pe cs i o items _ _ _ _ ihi ihb ih =>
    intro e e1 he hr
    cases ha : argOutcome items with
    | error x => simp [environmentOutcome, ha] at he
    | ok args =>
    cases i with
    | error x => simp [environmentOutcome, ha] at he
    | ok x =>
    cases o with
    | error x => simp [environmentOutcome, ha, Outcome.after] at he
    | ok rest =>
      simp only [environmentOutcome, ha, Outcome.after, Except.ok.injEq] at he
      subst he
      match e1, hr with
      | [], hr => simp [Retexted] at hr
      | .mk l1 v1 :: rest1, hr =>
        simp only [Retexted] at hr
        obtain ⟨hv0, hrr⟩ := hr
        match v1, hv0 with
        | .environment (.mk label1 args1 x1 pb1 pe1), hv =>
          simp only [RetextedV] at hv
          obtain ⟨rfl, hvv, hx, rfl, rfl⟩ := hv
          obtain ⟨d1, k1, k2, k3⟩ := ih _ _ rfl hrr
          obtain ⟨b1, n1, n2, n3⟩ := ihb _ _ rfl hx
          obtain ⟨a1, m1, m2, items2, m3, m4, args2, m5, m6⟩ := pulls_args ihi ha hvv
          have hlab : Ast1.Retexted Replaces lab lab := Ast1.retexted_refl (fun t => Ast1.replaces_refl t) lab
          have n1' : Ast1.Retexted Replaces body b1 := retexted_renumber n1
          refine ⟨.mk l (.command (.mk chars!"begin" ((pb1, .mk lab .curly) :: a1))) ::
            (b1 ++ .mk l' (.command (.mk chars!"end" [(pe1, .mk lab .curly)])) :: d1), ?_, ?_, fun d2 h2 => ?_⟩
          · simp only [Ast1.Retexted, Ast1.RetextedV, Ast1.RetextedArgs, true_and]
            refine ⟨⟨hlab, m1⟩, ?_⟩
            refine Ast1.retexted_append n1' ?_
            simp only [Ast1.Retexted, Ast1.RetextedV, Ast1.RetextedArgs, true_and]
            exact ⟨⟨hlab, trivial⟩, k1⟩
          · simp [Ast1.displayChunks, displayChunks, Ast1.Chunk.display, Chunk.display, Ast1.ChunkVariant.display, ChunkVariant.display, k2, n2,
              Ast1.Command.display, Ast1.displayArgs, Ast1.Scope.display, Environment.display, m2, Ast1.displayChunks_append,
              ScopeVariant.opening, ScopeVariant.closing]
          · obtain ⟨l2, cs2, rfl, hq⟩ := relined_cons h2
            obtain ⟨b2, r2, rfl, h3, hq2⟩ := relined_append hq
            obtain ⟨l3, cs3, rfl, hq3⟩ := relined_cons hq2
            obtain ⟨k4, e2, k5, k6⟩ := k3 _ hq3
            obtain ⟨n4, _⟩ := n3 _ h3
            simp only [Ast1.ChunkVariant.renum, Ast1.renumArgs]
            refine ⟨?_, ?_⟩
            · exact .env (lab := Ast1.renumSeq .none 1 lab) ⟨_, _, rfl⟩ n4 ⟨_, rfl⟩ k4
            · obtain ⟨_, x2, n5, n6⟩ := n3 _ (relined_renumber (k := endOfBegin l2 ((pb1, .mk (Ast1.renumSeq .none 1 lab) .curly) :: items2.map (·.1))) h3)
              have := Converts.environment (l := l2) (l' := l3) (p := pb1) (pe := pe1) (lab := Ast1.renumSeq .none 1 lab) (items := items2) n4 m4 n5 k5
              rw [m3] at this
              simp only [environmentOutcome, m5, Outcome.after, Ast1.display_renumSeq] at this
              refine ⟨_, this, ?_⟩
              simp only [SameButLines, Retexted, RetextedV, true_and, and_true] at n6 k6 ⊢
              exact ⟨⟨m6, n6⟩, k6⟩
        | .text _, hv | .scope _, hv | .command _, hv => simp [RetextedV] at hv
  | bad => intro e e1 he; simp at he
  | badInside => intro e e1 he; simp at he
  | unclosed => intro e e1 he; simp at he

end LatexAst.Ast2
