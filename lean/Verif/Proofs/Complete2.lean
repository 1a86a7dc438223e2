import Verif.Proofs.Complete1

/-! # Unfinished sources: completion -/

namespace LatexAst
open Spec

namespace Ast1

/-- The accepted (comment-free) sources. -/
inductive Acc : Str → Prop
  | nil : Acc []
  | text {t r} : t ≠ [] → (∀ x ∈ t, x ∉ ['\\', '%', '{', '[', '(']) → TextEnds r → Acc r → Acc (t ++ r)
  | scope {v : ScopeVariant} {a r} : NoDangling a → Balanced v 0 a → Acc a → Acc r → Acc (v.opening :: (a ++ v.closing :: r))
  | symbol {c r} : isAsciiAlphabetic c = false → Acc r → Acc ('\\' :: c :: r)
  | command {name w g k t} {args : List WrittenArg} : LetterName name → Written w args → Gap g k → GoesOn args g t →
      (∀ a ∈ args, Acc (dropBrackets a.kind a.content)) → Acc (k ++ t) → Acc ('\\' :: (name ++ (w ++ (g ++ t))))
  | last {name w g k} {args : List WrittenArg} : LetterName name → Written w args → Gap g k →
      (∀ a ∈ args, Acc (dropBrackets a.kind a.content)) → Acc ('\\' :: (name ++ (w ++ g)))

theorem argOutcome_all {items : List (WrittenArg × Outcome)} {args} (h : argOutcome items = .ok args) :
    ∀ x ∈ items, ∃ d, x.2 = .ok d := by
  induction items generalizing args with
  | nil => intro x hx; cases hx
  | cons y r ih =>
    obtain ⟨a, o⟩ := y
    cases o with
    | error e => simp [argOutcome] at h
    | ok d =>
      simp only [argOutcome] at h
      rcases hr : argOutcome r with e | as
      · rw [hr] at h; cases h
      · intro x hx
        rcases List.mem_cons.1 hx with rfl | hx
        · exact ⟨d, rfl⟩
        · exact ih hr x hx

theorem Reads.acc {l s o} (h : Reads l s o) : ∀ d, o = .ok d → Acc s := by
  induction h with
  | nil => intro d _; exact .nil
  | text h1 h2 h3 _ ih =>
    intro d e
    obtain ⟨cs, e1, _⟩ := outcome_after e
    exact .text h1 h2 h3 (ih cs e1)
  | @scope l v a r i o h1 h2 _ _ ih1 ih2 =>
    intro d e
    cases i with
    | error x => cases e
    | ok i =>
      obtain ⟨cs, e1, _⟩ := outcome_after e
      exact .scope h1 h2 (ih1 i rfl) (ih2 cs e1)
  | openScope h => intro d e; cases e
  | symbol h1 _ ih =>
    intro d e
    obtain ⟨cs, e1, _⟩ := outcome_after e
    exact .symbol h1 (ih cs e1)
  | @command l name w g k t o items h1 h2 h3 h4 _ _ ih1 ih2 =>
    intro d e
    unfold commandOutcome at e
    rcases ha : argOutcome items with x | as
    · rw [ha] at e; cases e
    · rw [ha] at e
      obtain ⟨cs, e1, _⟩ := outcome_after e
      refine .command h1 h2 h3 h4 (fun a hm => ?_) (ih2 cs e1)
      obtain ⟨y, hy, rfl⟩ := List.mem_map.1 hm
      obtain ⟨d, hd⟩ := argOutcome_all ha y hy
      exact ih1 y hy d hd
  | @lastCommand l name w g k items h1 h2 h3 _ ih1 =>
    intro d e
    unfold commandOutcome at e
    rcases ha : argOutcome items with x | as
    · rw [ha] at e; cases e
    · refine .last h1 h2 h3 (fun a hm => ?_)
      obtain ⟨y, hy, rfl⟩ := List.mem_map.1 hm
      obtain ⟨d, hd⟩ := argOutcome_all ha y hy
      exact ih1 y hy d hd
  | openArgument => intro d e; cases e
  | closing => intro d e; cases e

theorem make_items {args : List WrittenArg} (h : ∀ a ∈ args, ∃ d, Reads 1 (dropBrackets a.kind a.content) (.ok d)) :
    ∃ (items : List (WrittenArg × Outcome)) (as : _), items.map (·.1) = args ∧
      (∀ x ∈ items, Reads 1 (dropBrackets x.1.kind x.1.content) x.2) ∧ argOutcome items = .ok as := by
  induction args with
  | nil => exact ⟨[], [], rfl, (by intro x hx; cases hx), rfl⟩
  | cons a args ih =>
    obtain ⟨items, as, e1, e2, e3⟩ := ih (fun b hb => h b (.tail _ hb))
    obtain ⟨d, hd⟩ := h a (.head _)
    refine ⟨(a, .ok d) :: items, (a.prec, .mk d a.kind) :: as, by simp [e1], ?_, by simp [argOutcome, e3]⟩
    intro x hx
    rcases List.mem_cons.1 hx with rfl | hx
    · exact hd
    · exact e2 x hx

theorem Acc.reads {s} (h : Acc s) : ∀ l, ∃ d, Reads l s (.ok d) := by
  induction h with
  | nil => intro l; exact ⟨_, .nil⟩
  | @text t r h1 h2 h3 _ ih =>
    intro l
    obtain ⟨d, hd⟩ := ih (l + t.count '\n')
    exact ⟨_, .text h1 h2 h3 hd⟩
  | @scope v a r h1 h2 _ _ ih1 ih2 =>
    intro l
    obtain ⟨i, hi⟩ := ih1 1
    obtain ⟨d, hd⟩ := ih2 (l + a.count '\n')
    exact ⟨_, .scope h1 h2 hi hd⟩
  | @symbol c r h1 _ ih =>
    intro l
    obtain ⟨d, hd⟩ := ih (l + [c].count '\n')
    exact ⟨_, .symbol h1 hd⟩
  | @command name w g k t args h1 h2 h3 h4 _ _ ih1 ih2 =>
    intro l
    obtain ⟨items, as, rfl, e2, e3⟩ := make_items (fun a ha => ih1 a ha 1)
    obtain ⟨d, hd⟩ := ih2 (l + w.count '\n')
    have := Reads.command (l := l) h1 h2 h3 h4 e2 hd
    simp only [commandOutcome, e3, Outcome.after] at this
    exact ⟨_, this⟩
  | @last name w g k args h1 h2 h3 _ ih1 =>
    intro l
    obtain ⟨items, as, rfl, e2, e3⟩ := make_items (fun a ha => ih1 a ha 1)
    have := Reads.lastCommand (l := l) h1 h2 h3 e2
    simp only [commandOutcome, e3, Outcome.after] at this
    exact ⟨_, this⟩

/-! ### Parts of commands -/

theorem noDangling_left : ∀ {a b : Str}, '\\' ∉ a → (NoDangling (a ++ b) ↔ NoDangling b) := by
  intro a b h
  induction a with
  | nil => rfl
  | cons c a ih =>
    simp only [List.mem_cons, not_or] at h
    rw [List.cons_append, noDangling_cons (Ne.symm h.1)]; exact ih h.2

theorem noDangling_right : ∀ {a b : Str}, NoDangling a → (NoDangling (a ++ b) ↔ NoDangling b) := by
  intro a b
  refine pair_induction (P := fun a => NoDangling a → (NoDangling (a ++ b) ↔ NoDangling b)) ?_ ?_ ?_ ?_ a
  · intro _; rfl
  · intro h; simp [NoDangling] at h
  · intro c r ih h; rw [List.cons_append, List.cons_append, noDangling_esc]; exact ih (noDangling_esc.1 h)
  · intro c r hc ih h; rw [List.cons_append, noDangling_cons hc]; exact ih ((noDangling_cons hc).1 h)

theorem ws_not_bs {c : Char} (h : isWhitespace c = true) : c ≠ '\\' := by rintro rfl; exact absurd h (by decide)

theorem gap_noDangling {g k} (h : Gap g k) : NoDangling g := clean_noDangling h.clean

theorem ws_no_bracket {c : Char} (h : isWhitespace c = true) (v : ScopeVariant) : c ≠ v.opening ∧ c ≠ v.closing := by
  constructor <;> rintro rfl <;> cases v <;> exact absurd h (by decide)

theorem gap_bd {g k} (h : Gap g k) (v n) : bd v n g = some n := by
  induction h with
  | nil => exact bd_nil
  | plain hc _ ih => rw [bd_other (ws_not_bs hc) (ws_no_bracket hc v).1 (ws_no_bracket hc v).2, ih]
  | escaped hc _ ih => rw [bd_esc, ih]

theorem blank_bd {k : Str} (h : Blank k) (v n) : bd v n k = some n := by
  refine bd_none k (fun hm => ?_) (fun hm => ?_) n
  · exact (ws_no_bracket (h _ hm) v).1 rfl
  · exact (ws_no_bracket (h _ hm) v).2 rfl

theorem blank_bs {k : Str} (h : Blank k) : '\\' ∉ k := fun hm => ws_not_bs (h _ hm) rfl

theorem blank_openers {k : Str} (h : Blank k) : openers k = 0 := by
  rw [openers, List.countP_eq_zero]
  intro c hc
  have := blank_text h c hc
  simp at this ⊢
  grind

theorem gap_cut {g k} (h : Gap g k) : ∀ {g1 g2}, g = g1 ++ g2 → NoDangling g1 → ∃ k1, Gap g1 k1 := by
  induction h with
  | nil => intro g1 g2 e _; cases g1 with
    | nil => exact ⟨_, .nil⟩
    | cons c g => cases e
  | @plain c g k hc _ ih =>
    intro g1 g2 e hd
    cases g1 with
    | nil => exact ⟨_, .nil⟩
    | cons d g1 =>
      simp at e
      obtain ⟨rfl, e⟩ := e
      obtain ⟨k1, h1⟩ := ih e ((noDangling_cons (ws_not_bs hc)).1 hd)
      exact ⟨_, .plain hc h1⟩
  | @escaped c g k hc _ ih =>
    intro g1 g2 e hd
    rcases g1 with _ | ⟨d, _ | ⟨d', g1⟩⟩
    · exact ⟨_, .nil⟩
    · simp at e; rw [← e.1] at hd; simp [NoDangling] at hd
    · simp at e
      obtain ⟨rfl, rfl, e⟩ := e
      obtain ⟨k1, h1⟩ := ih e (noDangling_esc.1 hd)
      exact ⟨_, .escaped hc h1⟩

theorem Written.append {w1 a1} (h1 : Written w1 a1) {w2 a2} (h2 : Written w2 a2) : Written (w1 ++ w2) (a1 ++ a2) := by
  induction h1 with
  | none => exact h2
  | @arg g p b v a w args hg hb hd hbal _ ih =>
    have := Written.arg hg hb hd hbal ih
    simpa using this

theorem noDangling_opt {b : Str} (hb : b = [] ∨ b = ['\\']) {c : Char} (hc : c ≠ '\\') {r : Str} :
    NoDangling (b ++ c :: r) ↔ NoDangling r := by
  rcases hb with rfl | rfl
  · exact noDangling_cons hc
  · exact noDangling_esc

theorem Written.noDangling {w args} (h : Written w args) : NoDangling w := by
  induction h with
  | none => simp [NoDangling]
  | @arg g p b v a w args hg hb hd _ _ ih =>
    rw [List.append_assoc, noDangling_right (gap_noDangling hg), noDangling_opt hb (opening_bs v), noDangling_right hd,
      noDangling_cons (closing_bs v)]
    exact ih

theorem bd_opt {u : ScopeVariant} {b : Str} (hb : b = [] ∨ b = ['\\']) {v : ScopeVariant} (h : u ≠ v) {n} {r : Str} :
    bd u n (b ++ v.opening :: r) = bd u n r := by
  rcases hb with rfl | rfl
  · exact bd_open_ne h
  · exact bd_esc

/-- The kept content of an argument is sinking. -/
theorem sinks_arg {v : ScopeVariant} {g p b a : Str} (hg : Gap g p) (hb : b = [] ∨ b = ['\\']) (hd : NoDangling a)
    (hbal : Balanced v 0 a) (hs : Sinks (dropBrackets v a)) : Sinks (g ++ b ++ v.opening :: (a ++ [v.closing])) := by
  intro u n m h
  rw [List.append_assoc, bd_append _ g (gap_noDangling hg), gap_bd hg] at h
  simp only [Option.bind_some] at h
  by_cases e : u = v
  · subst e
    rcases hb with rfl | rfl
    · have := bd_mono (n + 1) a 0 0 ((balanced_bd _ _).1 hbal)
      simp only [Nat.zero_add] at this
      rw [List.nil_append, bd_open, bd_append _ a hd, this] at h
      simp [bd_close, bd_nil] at h
      omega
    · have := bd_mono n a 0 0 ((balanced_bd _ _).1 hbal)
      simp only [Nat.zero_add] at this
      rw [List.cons_append, List.nil_append, bd_esc, bd_append _ a hd, this] at h
      simp only [Option.bind_some] at h
      cases n with
      | zero => rw [bd_close_zero] at h; cases h
      | succ n => rw [bd_close, bd_nil] at h; cases h; omega
  · rw [bd_opt hb e, bd_append _ a hd] at h
    rcases he : bd u n a with _ | k
    · rw [he] at h; cases h
    · rw [he] at h
      simp [bd_close_ne e, bd_nil] at h
      have := hs u n k (by rw [bd_drop e]; exact he)
      omega

theorem Written.sinks {w args} (h : Written w args) : (∀ a ∈ args, Sinks (dropBrackets a.kind a.content)) → Sinks w := by
  induction h with
  | none => intro _ v n m e; simp [bd_nil] at e; omega
  | @arg g p b v a w args hg hb hd hbal hw ih =>
    intro hs
    have h1 := sinks_arg hg hb hd hbal (hs _ (.head _))
    have h2 := ih (fun a ha => hs a (.tail _ ha))
    have hn : NoDangling (g ++ b ++ v.opening :: (a ++ [v.closing])) := by
      rw [List.append_assoc, noDangling_right (gap_noDangling hg), noDangling_opt hb (opening_bs v), noDangling_right hd,
        noDangling_cons (closing_bs v)]
      simp [NoDangling]
    have := h1.append hn h2
    simpa using this

theorem letterName_prefix {name : Str} (h : LetterName name) {a b : Str} (e : name = a ++ b) (ha : a ≠ []) : LetterName a := by
  obtain ⟨c, r, rfl, hc, hr⟩ := h
  cases a with
  | nil => exact absurd rfl ha
  | cons d a =>
    simp at e
    obtain ⟨rfl, rfl⟩ := e
    exact ⟨_, a, rfl, hc, fun x hx => hr x (by simp [hx])⟩

theorem special_brackets (v : ScopeVariant) : Special v.opening ∧ Special v.closing := by
  cases v <;> simp [Special, ScopeVariant.opening, ScopeVariant.closing]

/-- The name with its backslash. -/
theorem name_bd {name : Str} (h : LetterName name) (v n) (r : Str) : bd v n ('\\' :: (name ++ r)) = bd v n r := by
  obtain ⟨c, nm, rfl, hc, hr⟩ := h
  rw [List.cons_append, bd_esc, bd_append r nm (noDangling_plain (fun x hx e => (hr x hx).2 (by simp [Special, e]))),
    bd_none nm (fun hm => (hr _ hm).2 (special_brackets v).1) (fun hm => (hr _ hm).2 (special_brackets v).2)]
  rfl

theorem name_noDangling {name : Str} (h : LetterName name) (r : Str) : NoDangling ('\\' :: (name ++ r)) ↔ NoDangling r := by
  obtain ⟨c, nm, rfl, hc, hr⟩ := h
  rw [List.cons_append, noDangling_esc, noDangling_right (noDangling_plain (fun x hx e => (hr x hx).2 (by simp [Special, e])))]

theorem sinks_command {name w : Str} {args : List WrittenArg} {g k : Str} (hn : LetterName name) (hw : Written w args) (hg : Gap g k)
    (hs : ∀ a ∈ args, Sinks (dropBrackets a.kind a.content)) :
    Sinks ('\\' :: (name ++ (w ++ g))) ∧ NoDangling ('\\' :: (name ++ (w ++ g))) := by
  constructor
  · intro v n m h
    rw [name_bd hn, bd_append _ w hw.noDangling] at h
    rcases he : bd v n w with _ | j
    · rw [he] at h; cases h
    · rw [he] at h
      simp [gap_bd hg] at h
      have := hw.sinks hs v n j he
      omega
  · rw [name_noDangling hn, noDangling_right hw.noDangling]
    exact gap_noDangling hg

theorem Acc.sinks {s} (h : Acc s) : Sinks s := by
  induction h with
  | nil => intro v n m e; simp [bd_nil] at e; omega
  | @text t r h1 h2 h3 _ ih =>
    refine Sinks.append (noDangling_plain fun x hx e => ?_) (sinks_closers fun x hx hm => ?_) ih
    · exact h2 x hx (by simp [e])
    · exact h2 x hx (by simp at hm ⊢; grind)
  | @scope v a r h1 h2 _ _ ih1 ih2 =>
    have := (sinks_scope h1 h2 ih1).append (b := r) (by
      rw [noDangling_cons (opening_bs v), noDangling_right h1, noDangling_cons (closing_bs v)]; simp [NoDangling]) ih2
    simpa using this
  | symbol h1 _ ih =>
    intro v n m e
    rw [bd_esc] at e
    exact ih v n m e
  | @command name w g k t args h1 h2 h3 h4 _ _ ih1 ih2 =>
    obtain ⟨p1, p2⟩ := sinks_command h1 h2 h3 ih1
    have : Sinks t := by
      intro v n m e
      refine ih2 v n m ?_
      rw [bd_append _ k (noDangling_plain fun x hx e => blank_bs h3.blank (e ▸ hx)), blank_bd h3.blank]
      exact e
    have := p1.append p2 this
    simpa using this
  | last h1 h2 h3 _ ih1 => exact (sinks_command h1 h2 h3 ih1).1

/-! ### Cutting -/

/-- Where a cut through the arguments of a command (and what follows) is. -/
theorem written_cut {w args} (h : Written w args) : ∀ {s t z : Str}, s ++ t = w ++ z → NoDangling s →
    (∃ s2, s = w ++ s2 ∧ z = s2 ++ t) ∨
    (∃ w1 args1 g k, s = w1 ++ g ∧ Written w1 args1 ∧ Gap g k ∧ ∀ a ∈ args1, a ∈ args) ∨
    (∃ w1 args1 g p b v a1 a2 t2, s = w1 ++ (g ++ (b ++ ScopeVariant.opening v :: a1)) ∧ Written w1 args1 ∧ Gap g p ∧
      (b = [] ∨ b = ['\\']) ∧ NoDangling a1 ∧ NoDangling (a1 ++ a2) ∧ Balanced v 0 (a1 ++ a2) ∧ (⟨p, v, a1 ++ a2⟩ : WrittenArg) ∈ args ∧
      (∀ a ∈ args1, a ∈ args) ∧ t = a2 ++ v.closing :: t2) := by
  induction h with
  | none => intro s t z e _; exact .inl ⟨s, rfl, e.symm⟩
  | @arg g p b v a w args hg hb hd hbal hw ih =>
    intro s t z e hs
    simp only [List.append_assoc, List.cons_append] at e
    rcases List.append_eq_append_iff.1 e with ⟨g2, e1, e2⟩ | ⟨s2, e1, e2⟩
    · -- within the gap
      obtain ⟨k1, h1⟩ := gap_cut hg e1 hs
      exact .inr (.inl ⟨[], [], s, k1, rfl, .none, h1, by intro a ha; cases ha⟩)
    · subst e1
      rw [noDangling_right (gap_noDangling hg)] at hs
      -- within `b`
      have hb' : s2 = [] ∨ ∃ s3, s2 = b ++ v.opening :: s3 ∧ s3 ++ t = a ++ v.closing :: (w ++ z) := by
        rcases hb with rfl | rfl
        · cases s2 with
          | nil => exact .inl rfl
          | cons c s2 =>
            simp at e2
            exact .inr ⟨s2, by simp [e2.1], e2.2.symm⟩
        · rcases s2 with _ | ⟨c, _ | ⟨d, s2⟩⟩
          · exact .inl rfl
          · simp at e2; rw [← e2.1] at hs; simp [NoDangling] at hs
          · simp at e2
            obtain ⟨h1, h2, h3⟩ := e2
            subst h1; subst h2
            exact .inr ⟨s2, rfl, h3.symm⟩
      rcases hb' with rfl | ⟨s3, rfl, e3⟩
      · exact .inr (.inl ⟨[], [], g, p, by simp, .none, hg, by intro a ha; cases ha⟩)
      · rw [noDangling_opt hb (opening_bs v)] at hs
        have inside : ∀ a2, a = s3 ++ a2 → t = a2 ++ v.closing :: (w ++ z) → _ :=
          fun a2 (ea : a = s3 ++ a2) (et : t = a2 ++ v.closing :: (w ++ z)) =>
          (⟨[], [], g, p, b, v, s3, a2, w ++ z, rfl, Written.none, hg, hb, hs, ea ▸ hd, ea ▸ hbal, ea ▸ List.mem_cons_self,
            (fun a ha => by cases ha), et⟩ :
            ∃ w1 args1 g' p' b' v' a1 a2 t2, g ++ (b ++ v.opening :: s3) = w1 ++ (g' ++ (b' ++ ScopeVariant.opening v' :: a1)) ∧ Written w1 args1 ∧
              Gap g' p' ∧ (b' = [] ∨ b' = ['\\']) ∧ NoDangling a1 ∧ NoDangling (a1 ++ a2) ∧ Balanced v' 0 (a1 ++ a2) ∧
              (⟨p', v', a1 ++ a2⟩ : WrittenArg) ∈ (⟨p, v, a⟩ :: args : List WrittenArg) ∧
              (∀ a' ∈ args1, a' ∈ (⟨p, v, a⟩ :: args : List WrittenArg)) ∧ t = a2 ++ v'.closing :: t2)
        rcases List.append_eq_append_iff.1 e3 with ⟨a2, e4, e5⟩ | ⟨s4, e4, e5⟩
        · exact .inr (.inr (inside a2 e4 e5))
        · cases s4 with
          | nil =>
            simp at e4 e5
            exact .inr (.inr (inside [] (by simp [e4]) (by simp [e5])))
          | cons c s5 =>
            simp at e5
            obtain ⟨rfl, e5⟩ := e5
            subst e4
            rw [noDangling_right hd, noDangling_cons (closing_bs v)] at hs
            rcases ih e5.symm hs with ⟨s6, rfl, e6⟩ | ⟨w1, args1, g', k', rfl, i1, i2, i3⟩ |
                ⟨w1, args1, g', p', b', v', a1, a2, t2, rfl, i1, i2, i3, i4, i5, i6, i7, i8, i9⟩
            · exact .inl ⟨s6, by simp, e6⟩
            · refine .inr (.inl ⟨_, _, g', k', ?_, Written.arg hg hb hd hbal i1, i2, ?_⟩)
              · simp
              · intro x hx
                rcases List.mem_cons.1 hx with rfl | hx
                · exact .head _
                · exact .tail _ (i3 x hx)
            · refine .inr (.inr ⟨_, _, g', p', b', v', a1, a2, t2, ?_, Written.arg hg hb hd hbal i1, i2, i3, i4, i5, i6, .tail _ i7, ?_, i9⟩)
              · simp
              · intro x hx
                rcases List.mem_cons.1 hx with rfl | hx
                · exact .head _
                · exact .tail _ (i8 x hx)

/-- Not an error that no continuation can repair. -/
def Mild (o : Outcome) : Prop := ∀ e, o = .error e → ∃ v, e.type = .unclosedScope v ∨ e.type = .unclosedArgument v

theorem Mild.after {c o} (h : Mild o) : Mild (o.after c) := by
  intro e he
  cases o with
  | ok cs => cases he
  | error x => exact h e he

/-- What is to be shown of a cut `s ++ t`. -/
def Can (s t : Str) : Prop :=
  (∃ w, (∀ c ∈ w, c ∈ closers) ∧ w.length ≤ openers s ∧ Acc (s ++ w) ∧ ∀ v, Balanced v 0 (s ++ t) → Balanced v 0 (s ++ w)) ∧
  ∀ l, ∃ o, Reads l s o ∧ Mild o

theorem can_acc {s t : Str} (h : Acc s) (hd : NoDangling s) : Can s t := by
  refine ⟨⟨[], by simp, by simp, by simpa using h, fun v hb => ?_⟩, fun l => ?_⟩
  · simpa using (h.sinks.split hd hb).1
  · obtain ⟨d, hr⟩ := h.reads l
    exact ⟨_, hr, fun e he => by cases he⟩

theorem closers_noDangling {w : Str} (h : ∀ c ∈ w, c ∈ closers) : NoDangling w :=
  noDangling_plain fun x hx e => closers_bs h (e ▸ hx)

theorem can_args {name w : Str} {args : List WrittenArg} (hn : LetterName name) (hw : Written w args)
    (ha : ∀ a ∈ args, Acc (dropBrackets a.kind a.content))
    (ih : ∀ a ∈ args, ∀ s t, dropBrackets a.kind a.content = s ++ t → NoDangling s → Can s t)
    {s t z : Str} (e : s ++ t = w ++ z) (hs : NoDangling s) :
    (∃ s2, s = w ++ s2 ∧ z = s2 ++ t) ∨ Can ('\\' :: (name ++ s)) t := by
  rcases written_cut hw e hs with h | ⟨w1, args1, g, k, rfl, i1, i2, i3⟩ |
    ⟨w1, args1, g, p, b, v, a1, a2, t2, rfl, i1, i2, i3, i4, i5, i6, i7, i8, i9⟩
  · exact .inl h
  · refine .inr (can_acc (.last hn i1 i2 fun a h => ha a (i3 a h)) ?_)
    rw [name_noDangling hn]; exact hs
  · refine .inr ⟨?_, fun l => ⟨_, .openArgument hn i1 i2 i3 (neverClosed_prefix i6), ?_⟩⟩
    · obtain ⟨⟨w', c1, c2, c3, c4⟩, -⟩ := ih _ i7 _ _ (drop_append a2 a1 i4) (noDangling_drop a1 i4)
      have hacc := ha _ i7
      simp only at hacc
      -- no bracket of kind `v` in `w'`
      have hv : v.closing ∉ w' := by
        have := c4 v (by rw [← drop_append a2 a1 i4, balanced_bd, bd_drop_self])
        rw [balanced_bd, bd_append _ _ (noDangling_drop a1 i4), bd_drop_self] at this
        exact closers_zero c1 this
      have hw' := closers_noDangling c1
      obtain ⟨k, hk⟩ : ∃ k, bd v 0 a1 = some k := by
        rw [balanced_bd, bd_append _ a1 i4] at i6
        rcases he : bd v 0 a1 with _ | k
        · rw [he] at i6; cases i6
        · exact ⟨k, rfl⟩
      have hrep : NoDangling (List.replicate k v.closing) := noDangling_plain fun x hx => by
        rw [(List.mem_replicate.1 hx).2]; exact closing_bs v
      have hcont : NoDangling (a1 ++ (w' ++ List.replicate k v.closing)) :=
        noDangling_append i4 (noDangling_append hw' hrep)
      have hbw : ∀ n, bd v n w' = some n := bd_none w' (closers_open c1 v) hv
      have hbal : Balanced v 0 (a1 ++ (w' ++ List.replicate k v.closing)) := by
        rw [balanced_bd, bd_append _ a1 i4, hk]
        simp only [Option.bind_some]
        rw [bd_append _ w' hw', hbw]
        simp only [Option.bind_some]
        have := bd_replicate (v := v) 0 k
        simpa using this
      have hdrop : dropBrackets v (a1 ++ (w' ++ List.replicate k v.closing)) = dropBrackets v a1 ++ w' := by
        rw [drop_append _ a1 i4, drop_append _ w' hw', drop_replicate, drop_absent (closers_bs c1) (closers_open c1 v) hv]
        simp
      have hlast := Acc.last (g := []) hn (i1.append (Written.arg i2 i3 hcont hbal .none)) .nil (by
        intro a h
        rcases List.mem_append.1 h with h | h
        · exact ha a (i8 a h)
        · simp at h; subst h; simp only; rw [hdrop]; exact c3)
      have hrs : ∀ n, List.replicate (n + 1) v.closing = List.replicate n v.closing ++ [v.closing] :=
        fun n => by rw [← List.replicate_append_replicate]; rfl
      refine ⟨w' ++ List.replicate (k + 1) v.closing, ?_, ?_, ?_, ?_⟩
      · intro c hc
        rcases List.mem_append.1 hc with h | h
        · exact c1 c h
        · rw [(List.mem_replicate.1 h).2]; exact closing_mem v
      · have h1 := drop_openers a1 0 k hk
        have h2 : openers a1 + 1 ≤ openers ('\\' :: (name ++ (w1 ++ (g ++ (b ++ v.opening :: a1))))) := by
          refine Nat.le_trans ?_ (openers_cons _ _)
          rw [openers_append, openers_append, openers_append, openers_append, openers_open]
          omega
        simp
        simp only at c2
        omega
      · rw [hrs]
        simpa using hlast
      · intro u hb
        have hsk : ∀ a ∈ args1, Sinks (dropBrackets a.kind a.content) := fun a h => (ha a (i8 a h)).sinks
        obtain ⟨q1, q2⟩ := sinks_command hn i1 i2 hsk
        have e1 : ∀ r, '\\' :: (name ++ (w1 ++ (g ++ (b ++ v.opening :: a1)))) ++ r =
            '\\' :: (name ++ (w1 ++ g)) ++ (b ++ v.opening :: (a1 ++ r)) := fun r => by simp
        rw [e1] at hb ⊢
        obtain ⟨r1, r2⟩ := q1.split q2 hb
        refine balanced_append q2 r1 ?_
        rw [balanced_bd] at r2 ⊢
        by_cases huv : u = v
        · subst huv
          rcases i3 with rfl | rfl
          · rw [List.nil_append, bd_open, bd_append _ a1 i4, bd_mono 1 a1 0 k hk]
            simp only [Option.bind_some]
            rw [bd_append _ w' hw', hbw]
            simp only [Option.bind_some]
            have := bd_replicate (v := u) 0 (k + 1)
            simpa using this
          · -- an escaped bracket cannot be matched
            exfalso
            rw [i9, List.cons_append, List.nil_append, bd_esc, ← List.append_assoc, bd_append _ _ i5,
              (balanced_bd _ _).1 i6] at r2
            simp [bd_close_zero] at r2
        · rw [bd_opt i3 huv] at r2 ⊢
          have hsa : Sinks (dropBrackets v (a1 ++ a2)) := hacc.sinks
          have h0 : bd u 0 (a1 ++ a2) = some 0 := by
            rw [i9, ← List.append_assoc, bd_append _ _ i5] at r2
            rcases he : bd u 0 (a1 ++ a2) with _ | j
            · rw [he] at r2; cases r2
            · have := hsa u 0 j (by rw [bd_drop huv]; exact he)
              have : j = 0 := by omega
              rw [this]
          have h1 := c4 u (by rw [← drop_append a2 a1 i4, balanced_bd, bd_drop huv]; exact h0)
          rw [balanced_bd, bd_append _ _ (noDangling_drop a1 i4), bd_drop huv] at h1
          rw [bd_append _ a1 i4]
          rcases he : bd u 0 a1 with _ | j
          · rw [he] at h1; cases h1
          · rw [he] at h1
            simp only [Option.bind_some] at h1 ⊢
            rw [bd_append _ w' hw', h1]
            simp only [Option.bind_some]
            refine bd_none _ ?_ ?_ 0
            · intro hm; rw [List.mem_replicate] at hm; exact opening_closing u v hm.2
            · intro hm; rw [List.mem_replicate] at hm; exact huv (closing_eq_iff.1 hm.2)
    · intro e he; cases he; exact ⟨v, .inr rfl⟩

theorem goesOn_cut {args : List WrittenArg} {g t1 t2 : Str} (h : GoesOn args g (t1 ++ t2)) (hne : t1 ≠ []) (hd : NoDangling t1) (z : Str) :
    GoesOn args g (t1 ++ z) := by
  rcases h with ⟨c, r, e, h1, h2⟩ | ⟨c, r, e, h1⟩
  · rcases t1 with _ | ⟨d, _ | ⟨d', t1⟩⟩
    · exact absurd rfl hne
    · simp at e; rw [e.1] at hd; simp [NoDangling] at hd
    · simp at e
      obtain ⟨rfl, rfl, _⟩ := e
      exact .inl ⟨d', t1 ++ z, rfl, h1, h2⟩
  · cases t1 with
    | nil => exact absurd rfl hne
    | cons d t1 =>
      simp at e
      obtain ⟨rfl, _⟩ := e
      exact .inr ⟨d, t1 ++ z, rfl, h1⟩

theorem can_nil {t : Str} : Can [] t := can_acc .nil (by simp [NoDangling])

/-- A cut through the name of a command, or behind it. -/
theorem name_cut {name : Str} (hn : LetterName name) {s t r : Str} (e : '\\' :: (name ++ r) = s ++ t) (hd : NoDangling s) :
    Can s t ∨ ∃ s1, s = '\\' :: (name ++ s1) ∧ s1 ++ t = r ∧ NoDangling s1 := by
  rcases s with _ | ⟨c, s⟩
  · exact .inl can_nil
  · simp at e
    obtain ⟨rfl, e⟩ := e
    rcases List.append_eq_append_iff.1 e with ⟨s1, e1, e2⟩ | ⟨n2, e1, e2⟩
    · subst e1
      exact .inr ⟨s1, rfl, e2.symm, (name_noDangling hn s1).1 hd⟩
    · have hne : s ≠ [] := by rintro rfl; simp [NoDangling] at hd
      have := Acc.last (w := []) (g := []) (args := []) (letterName_prefix hn e1 hne) .none .nil (by simp)
      simp only [List.append_nil] at this
      exact .inl (can_acc this hd)

theorem Acc.can {x} (h : Acc x) : ∀ s t, x = s ++ t → NoDangling s → Can s t := by
  induction h with
  | nil =>
    intro s t e hd
    have : s = [] := by cases s <;> simp_all
    subst this; exact can_nil
  | @text x r h1 h2 h3 _ ih =>
    intro s t e hd
    have hbs : ∀ y ∈ x, y ≠ '\\' := fun y hy e => h2 y hy (by simp [e])
    rcases List.append_eq_append_iff.1 e with ⟨s2, rfl, e2⟩ | ⟨x2, e1, e2⟩
    · have hx := noDangling_plain hbs
      have hsx : Sinks x := sinks_closers fun y hy hm => h2 y hy (by simp at hm ⊢; grind)
      rw [noDangling_right hx] at hd
      obtain ⟨⟨w, c1, c2, c3, c4⟩, hl⟩ := ih s2 t e2 hd
      have hends : ∀ w, (s2 = [] → w = []) → TextEnds (s2 ++ w) := by
        intro w hw c r' he
        cases s2 with
        | nil => simp [hw rfl] at he
        | cons d s2 => simp at he; exact h3 c (s2 ++ t) (by rw [e2, ← he.1]; rfl)
      refine ⟨⟨w, c1, by rw [openers_append]; omega, ?_, fun v hb => ?_⟩, fun l => ?_⟩
      · rw [List.append_assoc]
        refine .text h1 h2 (hends w fun e => ?_) c3
        subst e; simp [openers] at c2; exact c2
      · rw [List.append_assoc] at hb ⊢
        obtain ⟨p, q⟩ := hsx.split hx hb
        exact balanced_append hx p (c4 v q)
      · obtain ⟨o, ho, hm⟩ := hl (l + x.count '\n')
        have := hends [] (fun _ => rfl)
        simp only [List.append_nil] at this
        exact ⟨_, .text h1 h2 this ho, hm.after⟩
    · subst e1
      refine can_acc ?_ hd
      by_cases hs : s = []
      · subst hs; exact .nil
      · have := Acc.text (r := []) hs (fun y hy => h2 y (by simp [hy])) (by intro c r h; cases h) .nil
        simpa using this
  | @scope v a r h1 h2 ha _ ih1 ih2 =>
    intro s t e hd
    rcases s with _ | ⟨c, s⟩
    · exact can_nil
    · simp at e
      obtain ⟨rfl, e⟩ := e
      rw [noDangling_cons (opening_bs v)] at hd
      have inside : ∀ a2, a = s ++ a2 → t = a2 ++ v.closing :: r → Can (v.opening :: s) t := by
        rintro a2 rfl rfl
        obtain ⟨⟨w, c1, c2, c3, c4⟩, -⟩ := ih1 s a2 rfl hd
        have hw := closers_noDangling c1
        refine ⟨⟨w ++ [v.closing], ?_, ?_, ?_, fun u hb => ?_⟩, fun l => ⟨_, .openScope (neverClosed_prefix h2), ?_⟩⟩
        · intro c hc
          rcases List.mem_append.1 hc with h | h
          · exact c1 c h
          · simp at h; rw [h]; exact closing_mem v
        · rw [openers_open]; simp; exact c2
        · have := Acc.scope (r := []) (noDangling_append hd hw) (c4 v h2) c3 .nil
          simpa using this
        · have e1 : v.opening :: s ++ (w ++ [v.closing]) = v.opening :: ((s ++ w) ++ [v.closing]) := by simp
          have e2 : v.opening :: s ++ (a2 ++ v.closing :: r) = v.opening :: ((s ++ a2) ++ v.closing :: r) := by simp
          rw [e1]; rw [e2] at hb
          rw [balanced_bd] at hb ⊢
          by_cases huv : u = v
          · subst huv
            have := bd_mono 1 (s ++ w) 0 0 ((balanced_bd _ _).1 (c4 u h2))
            simp only [Nat.zero_add] at this
            rw [bd_open, Nat.zero_add, bd_append _ _ (noDangling_append hd hw), this]
            simp only [Option.bind_some]
            rw [show (1 : Nat) = 0 + 1 from rfl, bd_close, bd_nil]
          · rw [bd_open_ne huv] at hb ⊢
            have := (ha.sinks.split h1 ((balanced_bd _ _).2 hb)).1
            rw [bd_append _ _ (noDangling_append hd hw), (balanced_bd _ _).1 (c4 u this)]
            simp only [Option.bind_some]
            rw [bd_close_ne huv, bd_nil]
        · intro e he; cases he; exact ⟨v, .inl rfl⟩
      rcases List.append_eq_append_iff.1 e with ⟨s2, e1, e2⟩ | ⟨a2, e1, e2⟩
      · cases s2 with
        | nil => exact inside [] (by simp [e1]) (by simpa using e2.symm)
        | cons d s3 =>
          simp at e2
          obtain ⟨rfl, e2⟩ := e2
          subst e1
          rw [noDangling_right h1, noDangling_cons (closing_bs v)] at hd
          obtain ⟨⟨w, c1, c2, c3, c4⟩, hl⟩ := ih2 s3 t e2 hd
          have hp : NoDangling (v.opening :: (a ++ [v.closing])) := by
            rw [noDangling_cons (opening_bs v), noDangling_right h1, noDangling_cons (closing_bs v)]; simp [NoDangling]
          refine ⟨⟨w, c1, ?_, ?_, fun u hb => ?_⟩, fun l => ?_⟩
          · refine Nat.le_trans c2 (Nat.le_trans ?_ (openers_cons _ _))
            rw [openers_append]
            have := openers_cons v.closing s3
            omega
          · have := Acc.scope h1 h2 ha c3
            simpa using this
          · have e1 : ∀ z, v.opening :: (a ++ v.closing :: s3) ++ z = v.opening :: (a ++ [v.closing]) ++ (s3 ++ z) := by simp
            rw [e1] at hb ⊢
            obtain ⟨p, q⟩ := (sinks_scope h1 h2 ha.sinks).split hp hb
            exact balanced_append hp p (c4 u q)
          · obtain ⟨i, hi⟩ := ha.reads 1
            obtain ⟨o, ho, hm⟩ := hl (l + a.count '\n')
            exact ⟨_, .scope h1 h2 hi ho, hm.after⟩
      · exact inside a2 e1 e2
  | @symbol c r h1 _ ih =>
    intro s t e hd
    rcases s with _ | ⟨d, _ | ⟨d', s⟩⟩
    · exact can_nil
    · simp at e; rw [← e.1] at hd; simp [NoDangling] at hd
    · simp at e
      obtain ⟨rfl, rfl, e⟩ := e
      obtain ⟨⟨w, c1, c2, c3, c4⟩, hl⟩ := ih s t e (noDangling_esc.1 hd)
      refine ⟨⟨w, c1, ?_, ?_, fun u hb => ?_⟩, fun l => ?_⟩
      · exact Nat.le_trans c2 (Nat.le_trans (openers_cons _ _) (openers_cons _ _))
      · exact .symbol h1 c3
      · rw [List.cons_append, List.cons_append, balanced_esc] at hb ⊢
        exact c4 u hb
      · obtain ⟨o, ho, hm⟩ := hl (l + [c].count '\n')
        exact ⟨_, .symbol h1 ho, hm.after⟩
  | @command name w g k x args h1 h2 h3 h4 ha _ ih1 ih2 =>
    intro s t e hd
    rcases name_cut h1 e hd with h | ⟨s1, rfl, e1, hd1⟩
    · exact h
    · rcases can_args h1 h2 ha ih1 e1 hd1 with ⟨s2, rfl, e2⟩ | h
      · rw [noDangling_right h2.noDangling] at hd1
        rcases List.append_eq_append_iff.1 e2 with ⟨t1, e3, e4⟩ | ⟨g2, e3, e4⟩
        · by_cases hne : t1 = []
          · subst hne
            simp at e3; subst e3
            exact can_acc (.last h1 h2 h3 ha) hd
          · subst e3
            rw [noDangling_right (gap_noDangling h3)] at hd1
            have hkb := blank_bs h3.blank
            have hk := noDangling_plain fun y hy e => hkb (e ▸ hy)
            subst e4
            obtain ⟨⟨w', c1, c2, c3, c4⟩, hl⟩ := ih2 (k ++ t1) t (by simp) ((noDangling_left hkb).2 hd1)
            obtain ⟨q1, q2⟩ := sinks_command h1 h2 h3 fun a h => (ha a h).sinks
            refine ⟨⟨w', c1, ?_, ?_, fun u hb => ?_⟩, fun l => ?_⟩
            · rw [openers_append, blank_openers h3.blank] at c2
              refine Nat.le_trans ?_ (openers_cons _ _)
              rw [openers_append, openers_append, openers_append]
              omega
            · have := Acc.command h1 h2 h3 (goesOn_cut h4 hne hd1 w') ha (by simpa using c3)
              simpa using this
            · have e1 : ∀ z, '\\' :: (name ++ (w ++ (g ++ t1))) ++ z = '\\' :: (name ++ (w ++ g)) ++ (t1 ++ z) := by simp
              rw [e1] at hb ⊢
              obtain ⟨p, q⟩ := q1.split q2 hb
              refine balanced_append q2 p ?_
              have hbk := (balanced_bd (v := u) _ _).2 (blank_bd h3.blank u 0)
              have := c4 u (by rw [List.append_assoc]; exact balanced_append hk hbk q)
              rw [List.append_assoc, balanced_bd, bd_append _ k hk, blank_bd h3.blank] at this
              exact (balanced_bd _ _).2 this
            · obtain ⟨items, as, rfl, j2, j3⟩ := make_items (fun a h => (ha a h).reads 1)
              obtain ⟨o, ho, hm⟩ := hl (l + w.count '\n')
              have hg := goesOn_cut h4 hne hd1 []
              simp only [List.append_nil] at hg
              have := Reads.command (l := l) h1 h2 h3 hg j2 ho
              simp only [commandOutcome, j3] at this
              exact ⟨_, this, hm.after⟩
        · obtain ⟨k1, hk1⟩ := gap_cut h3 e3 hd1
          exact can_acc (.last h1 h2 hk1 ha) hd
      · exact h
  | @last name w g k args h1 h2 h3 ha ih1 =>
    intro s t e hd
    rcases name_cut h1 e hd with h | ⟨s1, rfl, e1, hd1⟩
    · exact h
    · rcases can_args h1 h2 ha ih1 e1 hd1 with ⟨s2, rfl, e2⟩ | h
      · rw [noDangling_right h2.noDangling] at hd1
        obtain ⟨k1, hk1⟩ := gap_cut h3 e2 hd1
        exact can_acc (.last h1 h2 hk1 ha) hd
      · exact h

end Ast1
end LatexAst
