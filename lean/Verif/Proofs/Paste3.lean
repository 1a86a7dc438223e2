import Verif.Proofs.Paste2

/-!
# Joining documents of stage 2
-/

namespace LatexAst.Ast2
open Spec

/-- Not empty, and the last node of an environment is a command. -/
theorem speltV_last {v : ChunkVariant} {w} (h : SpeltV v w) :
    (∃ t, v = .text t ∧ w = [.text t]) ∨ (∃ cs sv ds, v = .scope (.mk cs sv) ∧ w = [.scope (.mk ds sv)]) ∨
    (∃ label args args', v = .command (.mk label args) ∧ w = [.command (.mk label args')] ∧ (args = [] ↔ args' = [])) ∨
    ∃ env b m x y, v = .environment env ∧ w = .command (.mk chars!"begin" b) :: (m ++ [.command (.mk chars!"end" [(x, y)])]) := by
  match v, h with
  | .text t, h => simp only [SpeltV] at h; exact .inl ⟨t, rfl, h⟩
  | .scope (.mk cs sv), h => simp only [SpeltV] at h; obtain ⟨ds, h, _⟩ := h; exact .inr (.inl ⟨cs, sv, ds, rfl, h⟩)
  | .command (.mk label args), h =>
    simp only [SpeltV] at h
    obtain ⟨_, _, args', h, ha⟩ := h
    refine .inr (.inr (.inl ⟨label, args, args', rfl, h, ?_⟩))
    match args, ha with
    | [], ha => simp only [SpeltArgs] at ha; simp [ha]
    | (p, .mk c s) :: r, ha => simp only [SpeltArgs] at ha; obtain ⟨_, _, rfl, _⟩ := ha; simp
  | .environment (.mk label args content pb pe), h =>
    simp only [SpeltV] at h
    obtain ⟨lab, args', body, _, _, _, h⟩ := h
    exact .inr (.inr (.inr ⟨_, _, body, _, _, rfl, h⟩))

/-- The last chunk. -/
theorem spelt_snoc {a : List Chunk} {da : List Ast1.Chunk} (h : Spelt a (da.map Ast1.Chunk.variant)) :
    (a = [] ∧ da = []) ∨
    (∃ i di l l' t, a = i ++ [.mk l (.text t)] ∧ da = di ++ [.mk l' (.text t)] ∧ Spelt i (di.map Ast1.Chunk.variant)) ∨
    (∃ i di l l' cs ds sv, a = i ++ [.mk l (.scope (.mk cs sv))] ∧ da = di ++ [.mk l' (.scope (.mk ds sv))] ∧ Spelt i (di.map Ast1.Chunk.variant)) ∨
    (∃ i di l l' label args args', a = i ++ [.mk l (.command (.mk label args))] ∧ da = di ++ [.mk l' (.command (.mk label args'))] ∧ (args = [] ↔ args' = []) ∧
      Spelt i (di.map Ast1.Chunk.variant)) ∨
    ∃ i di l l' env x y, a = i ++ [.mk l (.environment env)] ∧ da = di ++ [.mk l' (.command (.mk chars!"end" [(x, y)]))] := by
  rcases List.eq_nil_or_concat a with rfl | ⟨i, ⟨l, v⟩, rfl⟩
  · simp only [Spelt, List.map_eq_nil_iff] at h; exact .inl ⟨rfl, h⟩
  · rw [List.concat_eq_append, spelt_append] at h
    obtain ⟨w1, w2, h1, h2, h3⟩ := h
    rw [spelt_single] at h3
    obtain ⟨di, dv, rfl, rfl, rfl⟩ := List.map_eq_append_iff.1 h1
    rw [List.concat_eq_append]
    rcases speltV_last h3 with ⟨t, rfl, hw⟩ | ⟨cs, sv, ds, rfl, hw⟩ | ⟨label, args, args', rfl, hw, ha⟩ | ⟨env, b, m, x, y, rfl, hw⟩
    · obtain ⟨⟨l', v'⟩, rfl, hv⟩ := List.map_eq_singleton_iff.1 hw
      simp only [Ast1.Chunk.variant] at hv; subst hv
      exact .inr (.inl ⟨i, di, l, l', t, rfl, rfl, h2⟩)
    · obtain ⟨⟨l', v'⟩, rfl, hv⟩ := List.map_eq_singleton_iff.1 hw
      simp only [Ast1.Chunk.variant] at hv; subst hv
      exact .inr (.inr (.inl ⟨i, di, l, l', _, _, _, rfl, rfl, h2⟩))
    · obtain ⟨⟨l', v'⟩, rfl, hv⟩ := List.map_eq_singleton_iff.1 hw
      simp only [Ast1.Chunk.variant] at hv; subst hv
      exact .inr (.inr (.inr (.inl ⟨i, di, l, l', _, _, _, rfl, rfl, ha, h2⟩)))
    · rw [← List.cons_append] at hw
      obtain ⟨d1, d2, rfl, _, hv⟩ := List.map_eq_append_iff.1 hw
      obtain ⟨⟨l', v'⟩, rfl, hv2⟩ := List.map_eq_singleton_iff.1 hv
      rw [show v' = _ from hv2]
      exact .inr (.inr (.inr (.inr ⟨i, di ++ d1, l, l', env, x, y, rfl, by simp⟩)))

/-- The first chunk. -/
theorem spelt_head {b : List Chunk} {db : List Ast1.Chunk} (h : Spelt b (db.map Ast1.Chunk.variant)) :
    (b = [] ∧ db = []) ∨
    (∃ r dr l l' t, b = .mk l (.text t) :: r ∧ db = .mk l' (.text t) :: dr ∧ Spelt r (dr.map Ast1.Chunk.variant)) ∨
    (∃ r dr l l' cs ds sv, b = .mk l (.scope (.mk cs sv)) :: r ∧ db = .mk l' (.scope (.mk ds sv)) :: dr) ∨
    (∃ r dr l l' label args args', b = .mk l (.command (.mk label args)) :: r ∧ db = .mk l' (.command (.mk label args')) :: dr) ∨
    ∃ r dr l l' env args, b = .mk l (.environment env) :: r ∧ db = .mk l' (.command (.mk chars!"begin" args)) :: dr := by
  match b, h with
  | [], h => simp only [Spelt, List.map_eq_nil_iff] at h; exact .inl ⟨rfl, h⟩
  | .mk l v :: r, h =>
    simp only [Spelt] at h
    obtain ⟨w1, w2, h1, h3, h2⟩ := h
    obtain ⟨dv, dr, rfl, rfl, rfl⟩ := List.map_eq_append_iff.1 h1
    rcases speltV_last h3 with ⟨t, rfl, hw⟩ | ⟨cs, sv, ds, rfl, hw⟩ | ⟨label, args, args', rfl, hw, ha⟩ | ⟨env, b, m, x, y, rfl, hw⟩
    · obtain ⟨⟨l', v'⟩, rfl, hv⟩ := List.map_eq_singleton_iff.1 hw
      simp only [Ast1.Chunk.variant] at hv; subst hv
      exact .inr (.inl ⟨r, dr, l, l', t, rfl, rfl, h2⟩)
    · obtain ⟨⟨l', v'⟩, rfl, hv⟩ := List.map_eq_singleton_iff.1 hw
      simp only [Ast1.Chunk.variant] at hv; subst hv
      exact .inr (.inr (.inl ⟨r, dr, l, l', _, _, _, rfl, rfl⟩))
    · obtain ⟨⟨l', v'⟩, rfl, hv⟩ := List.map_eq_singleton_iff.1 hw
      simp only [Ast1.Chunk.variant] at hv; subst hv
      exact .inr (.inr (.inr (.inl ⟨r, dr, l, l', _, _, _, rfl, rfl⟩)))
    · match dv, hw with
      | ⟨l', v'⟩ :: dv, hw =>
        simp only [List.map_cons, List.cons.injEq, Ast1.Chunk.variant] at hw
        obtain ⟨rfl, _⟩ := hw
        exact .inr (.inr (.inr (.inr ⟨r, dv ++ dr, l, l', _, _, rfl, rfl⟩)))

theorem snoc_inj {α} {i i' : List α} {x x' : α} (h : i ++ [x] = i' ++ [x']) : i = i' ∧ x = x' := by
  have := List.append_inj' h rfl
  exact ⟨this.1, by simpa using this.2⟩

theorem ends_spelt {a : List Chunk} {da : List Ast1.Chunk} (h : Spelt a (da.map Ast1.Chunk.variant)) : EndsLikeCommand a ↔ Ast1.EndsWithLetterCommand da := by
  rcases spelt_snoc h with ⟨rfl, rfl⟩ | ⟨i, di, l, l', t, rfl, rfl, _⟩ | ⟨i, di, l, l', cs, ds, sv, rfl, rfl, _⟩ | ⟨i, di, l, l', label, args, args', rfl, rfl, _⟩ |
    ⟨i, di, l, l', env, x, y, rfl, rfl⟩
  · constructor
    · rintro ⟨_, _, _, h, _⟩; simp at h
    · rintro ⟨_, _, _, _, _, h, _⟩; simp at h
  · constructor
    · rintro ⟨_, _, _, h, h'⟩
      obtain ⟨_, h⟩ := snoc_inj h; injection h with _ h; subst h
      rcases h' with ⟨_, _, _, h, _⟩ | ⟨_, h⟩ <;> cases h
    · rintro ⟨_, _, _, _, _, h, _⟩; obtain ⟨_, h⟩ := snoc_inj h; cases h
  · constructor
    · rintro ⟨_, _, _, h, h'⟩
      obtain ⟨_, h⟩ := snoc_inj h; injection h with _ h; subst h
      rcases h' with ⟨_, _, _, h, _⟩ | ⟨_, h⟩ <;> cases h
    · rintro ⟨_, _, _, _, _, h, _⟩; obtain ⟨_, h⟩ := snoc_inj h; cases h
  · constructor
    · rintro ⟨_, _, _, h, h'⟩
      obtain ⟨_, h⟩ := snoc_inj h; injection h with _ h; subst h
      rcases h' with ⟨x, r, _, h, hx⟩ | ⟨_, h⟩
      · injection h with h; injection h with h _; subst h; exact ⟨di, l', x, r, args', rfl, hx⟩
      · cases h
    · rintro ⟨_, _, x, r, _, h, hx⟩; obtain ⟨_, h⟩ := snoc_inj h
      injection h with _ h; injection h with h; injection h with h _; subst h
      exact ⟨i, l, _, rfl, .inl ⟨x, r, _, rfl, hx⟩⟩
  · exact ⟨fun _ => ⟨di, l', 'e', chars!"nd", _, rfl, by decide⟩, fun _ => ⟨i, l, _, rfl, .inr ⟨_, rfl⟩⟩⟩

/-- The first node of a sequence stands apart. -/
def Apart (v : ChunkVariant) : Prop :=
  (∀ sc, v ≠ .scope sc) ∧ ∀ y args, v = .command (.mk [y] args) → isWhitespace y = false ∧ y ∉ ['{', '[', '(']

theorem apart_spelt {b : List Chunk} {db : List Ast1.Chunk} (h : Spelt b (db.map Ast1.Chunk.variant)) :
    (∀ l v r, b = .mk l v :: r → Apart v) ↔ ∀ l v r, db = .mk l v :: r → Ast1.Apart v := by
  rcases spelt_head h with ⟨rfl, rfl⟩ | ⟨r, dr, l, l', t, rfl, rfl, _⟩ | ⟨r, dr, l, l', cs, ds, sv, rfl, rfl⟩ | ⟨r, dr, l, l', label, args, args', rfl, rfl⟩ |
    ⟨r, dr, l, l', env, args, rfl, rfl⟩
  · constructor <;> rintro _ _ _ _ h <;> cases h
  · constructor
    · rintro _ _ _ _ h; cases h; exact Ast1.apart_text
    · rintro _ _ _ _ h; cases h; exact ⟨(fun _ h => by cases h), fun _ _ h => by cases h⟩
  · constructor
    · intro h; exact absurd rfl ((h _ _ _ rfl).1 _)
    · intro h; exact absurd rfl ((h _ _ _ rfl).1 _)
  · constructor
    · rintro h _ _ _ he; cases he
      refine ⟨(fun _ h => by cases h), fun y ar he => ?_⟩
      cases he; exact (h _ _ _ rfl).2 y args rfl
    · rintro h _ _ _ he; cases he
      refine ⟨(fun _ h => by cases h), fun y ar he => ?_⟩
      cases he; exact (h _ _ _ rfl).2 y args' rfl
  · constructor
    · rintro _ _ _ _ he; cases he
      refine ⟨(fun _ h => by cases h), fun y ar he => by cases he⟩
    · rintro h _ _ _ he; cases he
      exact ⟨(fun _ h => by cases h), fun y ar he => by cases he⟩

theorem joins_spelt {a b : List Chunk} {da db : List Ast1.Chunk} (ha : Spelt a (da.map Ast1.Chunk.variant)) (hb : Spelt b (db.map Ast1.Chunk.variant)) :
    Joins a b ↔ Ast1.Joins da db := by
  have hE := ends_spelt ha
  -- the first chunk of `b` is a text
  have hH : ∀ t, (∃ l r, b = .mk l (.text t) :: r) ↔ ∃ l r, db = .mk l (.text t) :: r := by
    intro t
    rcases spelt_head hb with ⟨rfl, rfl⟩ | ⟨r, dr, l, l', t, rfl, rfl, _⟩ | ⟨r, dr, l, l', cs, ds, sv, rfl, rfl⟩ | ⟨r, dr, l, l', label, args, args', rfl, rfl⟩ |
      ⟨r, dr, l, l', env, args, rfl, rfl⟩ <;> simp
  -- and a blank text comes before
  have hS : ∀ {t}, ((∃ l l1 v r, b = .mk l (.text t) :: .mk l1 v :: r ∧ ¬ Apart v) ↔ ∃ l l1 v r, db = .mk l (.text t) :: .mk l1 v :: r ∧ ¬ Ast1.Apart v) := by
    intro t
    rcases spelt_head hb with ⟨rfl, rfl⟩ | ⟨r, dr, l, l', t, rfl, rfl, hr⟩ | ⟨r, dr, l, l', cs, ds, sv, rfl, rfl⟩ | ⟨r, dr, l, l', label, args, args', rfl, rfl⟩ |
      ⟨r, dr, l, l', env, args, rfl, rfl⟩
    · simp
    · have := apart_spelt hr
      constructor
      · rintro ⟨_, l1, v, r', he, hv⟩
        cases he
        apply Classical.byContradiction; intro hn
        exact hv (this.2 (fun l v r he => Classical.byContradiction fun hv' => hn ⟨_, _, _, _, by rw [he], hv'⟩) _ _ _ rfl)
      · rintro ⟨_, l1, v, r', he, hv⟩
        cases he
        apply Classical.byContradiction; intro hn
        exact hv (this.1 (fun l v r he => Classical.byContradiction fun hv' => hn ⟨_, _, _, _, by rw [he], hv'⟩) _ _ _ rfl)
    · simp
    · simp
    · simp
  have hA := apart_spelt hb
  unfold Joins Ast1.Joins
  -- the last condition
  have h3 : (∀ i w w' l v r, a = i ++ w → b = w' ++ .mk l v :: r → EndsLikeCommand i →
      (w ++ w' = [] ∨ ∃ l t, w ++ w' = [.mk l (.text t)] ∧ Blank t) → Apart v) ↔
      ∀ i w w' l v r, da = i ++ w → db = w' ++ .mk l v :: r → Ast1.EndsWithLetterCommand i →
      (w ++ w' = [] ∨ ∃ l t, w ++ w' = [.mk l (.text t)] ∧ Blank t) → Ast1.Apart v := by
    constructor
    · rintro h i w w' l v r hi hbb he hw
      rcases hw with hw | ⟨l0, t0, hw, hbl⟩
      · obtain ⟨rfl, rfl⟩ := List.append_eq_nil_iff.1 hw
        simp only [List.append_nil, List.nil_append] at hi hbb
        subst hi
        exact hA.1 (fun l v r hb' => h a [] [] l v r (by simp) hb' (hE.2 he) (.inl rfl)) _ _ _ hbb
      · rcases List.append_eq_singleton_iff.1 hw with ⟨rfl, rfl⟩ | ⟨rfl, rfl⟩
        · simp only [List.append_nil] at hi
          subst hi
          apply Classical.byContradiction; intro hv
          obtain ⟨l1, l2, v', r', hb', hv'⟩ := hS.2 ⟨l0, l, v, r, hbb, hv⟩
          exact hv' (h a [] [.mk l1 (.text t0)] l2 v' r' (by simp) hb' (hE.2 he) (.inr ⟨l1, t0, rfl, hbl⟩))
        · simp only [List.nil_append] at hbb
          subst hi
          rcases spelt_snoc ha with ⟨_, h1⟩ | ⟨i', di, l1, l', t, rfl, h1, h2⟩ | ⟨i', di, l1, l', cs, ds, sv, _, h1, _⟩ |
            ⟨i', di, l1, l', label, args, args', _, h1, _⟩ | ⟨i', di, l1, l', env, x, y, _, h1⟩
          · simp at h1
          · obtain ⟨rfl, h9⟩ := snoc_inj h1
            cases h9
            exact hA.1 (fun l v r hb' => h i' [.mk l1 (.text t0)] [] l v r rfl hb' ((ends_spelt h2).2 he) (.inr ⟨l1, t0, rfl, hbl⟩)) _ _ _ hbb
          all_goals (obtain ⟨_, h1⟩ := snoc_inj h1; cases h1)
    · rintro h i w w' l v r hi hbb he hw
      rcases hw with hw | ⟨l0, t0, hw, hbl⟩
      · obtain ⟨rfl, rfl⟩ := List.append_eq_nil_iff.1 hw
        simp only [List.append_nil, List.nil_append] at hi hbb
        subst hi
        exact hA.2 (fun l v r hb' => h da [] [] l v r (by simp) hb' (hE.1 he) (.inl rfl)) _ _ _ hbb
      · rcases List.append_eq_singleton_iff.1 hw with ⟨rfl, rfl⟩ | ⟨rfl, rfl⟩
        · simp only [List.append_nil] at hi
          subst hi
          apply Classical.byContradiction; intro hv
          obtain ⟨l1, l2, v', r', hb', hv'⟩ := hS.1 ⟨l0, l, v, r, hbb, hv⟩
          exact hv' (h da [] [.mk l1 (.text t0)] l2 v' r' (by simp) hb' (hE.1 he) (.inr ⟨l1, t0, rfl, hbl⟩))
        · simp only [List.nil_append] at hbb
          subst hi
          rcases spelt_snoc ha with ⟨h1, _⟩ | ⟨i', di, l1, l', t, h1, rfl, h2⟩ | ⟨i', di, l1, l', cs, ds, sv, h1, _⟩ |
            ⟨i', di, l1, l', label, args, args', h1, _⟩ | ⟨i', di, l1, l', env, x, y, h1, _⟩
          · simp at h1
          · obtain ⟨rfl, h9⟩ := snoc_inj h1
            cases h9
            exact hA.2 (fun l v r hb' => h di [.mk l' (.text t0)] [] l v r rfl hb' ((ends_spelt h2).1 he) (.inr ⟨l', t0, rfl, hbl⟩)) _ _ _ hbb
          all_goals (obtain ⟨_, h1⟩ := snoc_inj h1; cases h1)
  have h12 : ((∀ i l t l' t' r, a = i ++ [.mk l (.text t)] → b ≠ .mk l' (.text t') :: r) ∧
      (∀ i l x name args l' t r, a = i ++ [.mk l (.command (.mk (x :: name) args))] → isAsciiAlphabetic x = true → b = .mk l' (.text t) :: r →
        (args = [] → ∃ y z, t = y :: z ∧ isWhitespace y = true) ∧ (args ≠ [] → ∀ y z, t = y :: z → y ∉ ['}', ']', ')'])) ∧
      (∀ i l env l' t r, a = i ++ [.mk l (.environment env)] → b = .mk l' (.text t) :: r → ∀ y z, t = y :: z → y ∉ ['}', ']', ')'])) ↔
      ((∀ i l t l' t' r, da = i ++ [.mk l (.text t)] → db ≠ .mk l' (.text t') :: r) ∧
      (∀ i l x name args l' t r, da = i ++ [.mk l (.command (.mk (x :: name) args))] → isAsciiAlphabetic x = true → db = .mk l' (.text t) :: r →
        (args = [] → ∃ y z, t = y :: z ∧ isWhitespace y = true) ∧ (args ≠ [] → ∀ y z, t = y :: z → y ∉ ['}', ']', ')']))) := by
    rcases spelt_snoc ha with ⟨rfl, rfl⟩ | ⟨i, di, l, l', t, rfl, rfl, _⟩ | ⟨i, di, l, l', cs, ds, sv, rfl, rfl, _⟩ | ⟨i, di, l, l', label, args, args', rfl, rfl, hn, _⟩ |
      ⟨i, di, l, l', env, x, y, rfl, rfl⟩
    · constructor <;> intro _
      · exact ⟨(fun i l t l' t' r h => by simp at h), fun i l x name args l' t r h => by simp at h⟩
      · exact ⟨(fun i l t l' t' r h => by simp at h), (fun i l x name args l' t r h => by simp at h), fun i l x name args l' h => by simp at h⟩
    · constructor
      · intro h
        refine ⟨fun i' l1 t1 l2 t2 r h' hb' => ?_, fun i l x name args l' t r h => by obtain ⟨_, h⟩ := snoc_inj h; cases h⟩
        obtain ⟨_, _, hb'⟩ := (hH t2).2 ⟨_, _, hb'⟩
        exact h.1 _ _ _ _ _ _ rfl hb'
      · intro h
        refine ⟨fun i' l1 t1 l2 t2 r h' hb' => ?_, (fun i l x name args l' t r h => by obtain ⟨_, h⟩ := snoc_inj h; cases h),
          fun i l x name args l' h => by obtain ⟨_, h⟩ := snoc_inj h; cases h⟩
        obtain ⟨_, _, hb'⟩ := (hH t2).1 ⟨_, _, hb'⟩
        exact h.1 _ _ _ _ _ _ rfl hb'
    · constructor <;> intro _
      · exact ⟨(fun i l t l' t' r h => by obtain ⟨_, h⟩ := snoc_inj h; cases h), fun i l x name args l' t r h => by obtain ⟨_, h⟩ := snoc_inj h; cases h⟩
      · exact ⟨(fun i l t l' t' r h => by obtain ⟨_, h⟩ := snoc_inj h; cases h),
          (fun i l x name args l' t r h => by obtain ⟨_, h⟩ := snoc_inj h; cases h), fun i l x name args l' h => by obtain ⟨_, h⟩ := snoc_inj h; cases h⟩
    · constructor
      · intro h
        refine ⟨(fun i l t l' t' r h => by obtain ⟨_, h⟩ := snoc_inj h; cases h), fun i' l1 x name ar l2 t r h' hx hb' => ?_⟩
        obtain ⟨_, h'⟩ := snoc_inj h'; cases h'
        obtain ⟨_, _, hb'⟩ := (hH t).2 ⟨_, _, hb'⟩
        have := h.2.1 _ _ _ _ _ _ _ _ rfl hx hb'
        rwa [hn, ne_eq, hn] at this
      · intro h
        refine ⟨(fun i l t l' t' r h => by obtain ⟨_, h⟩ := snoc_inj h; cases h), fun i' l1 x name ar l2 t r h' hx hb' => ?_,
          fun i l x name args l' h => by obtain ⟨_, h⟩ := snoc_inj h; cases h⟩
        obtain ⟨_, h'⟩ := snoc_inj h'; cases h'
        obtain ⟨_, _, hb'⟩ := (hH t).1 ⟨_, _, hb'⟩
        have := h.2 _ _ _ _ _ _ _ _ rfl hx hb'
        rwa [← hn, ne_eq, ← hn] at this
    · constructor
      · intro h
        refine ⟨(fun i l t l' t' r h => by obtain ⟨_, h⟩ := snoc_inj h; cases h), fun i' l1 x name ar l2 t r h' hx hb' => ?_⟩
        obtain ⟨_, h'⟩ := snoc_inj h'; cases h'
        obtain ⟨_, _, hb'⟩ := (hH t).2 ⟨_, _, hb'⟩
        exact ⟨(fun h => by cases h), fun _ => h.2.2 _ _ _ _ _ _ rfl hb'⟩
      · intro h
        refine ⟨(fun i l t l' t' r h => by obtain ⟨_, h⟩ := snoc_inj h; cases h), (fun i' l1 x name ar l2 t r h' => by obtain ⟨_, h⟩ := snoc_inj h'; cases h), ?_⟩
        intro i' l1 env' l2 t r h' hb'
        obtain ⟨_, _, hb'⟩ := (hH t).1 ⟨_, _, hb'⟩
        exact (h.2 _ _ _ _ _ _ _ _ rfl (by decide) hb').2 (by simp)
  constructor
  · rintro ⟨k1, k2, k3, k4⟩
    obtain ⟨m1, m2⟩ := h12.1 ⟨k1, k2, k3⟩
    exact ⟨m1, m2, h3.1 k4⟩
  · rintro ⟨k1, k2, k4⟩
    obtain ⟨m1, m2, m3⟩ := h12.2 ⟨k1, k2⟩
    exact ⟨m1, m2, m3, h3.2 k4⟩

theorem survives_append {a b : Document} : Survives (a ++ b) ↔ Survives a ∧ Survives b ∧ Joins a b := by
  simp only [survives_spelt]
  constructor
  · rintro ⟨d, hg, hs⟩
    obtain ⟨w1, w2, h1, h2, h3⟩ := spelt_append.1 hs
    obtain ⟨da, db, rfl, rfl, rfl⟩ := List.map_eq_append_iff.1 h1
    obtain ⟨g1, g2, g3⟩ := Ast1.good_append.1 hg
    exact ⟨⟨da, g1, h2⟩, ⟨db, g2, h3⟩, (joins_spelt h2 h3).2 g3⟩
  · rintro ⟨⟨da, g1, h2⟩, ⟨db, g2, h3⟩, hj⟩
    exact ⟨da ++ db, Ast1.good_append.2 ⟨g1, g2, (joins_spelt h2 h3).1 hj⟩, spelt_append.2 ⟨_, _, by simp, h2, h3⟩⟩

end LatexAst.Ast2
