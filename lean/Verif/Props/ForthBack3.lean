import Verif.Proofs.ForthBack3
import Verif.Props.ForthBack2

/-! # C114: when going to stage 1 and back to stage 2 panics, exactly -/

namespace LatexAst.Ast2
open Ast1 (Opened Matched Checked)

theorem belowBegin_iff (e : Document) : BelowBegin e ↔ AllChunks LowV e := by
  rw [allChunks_iff]
  constructor
  · intro h v hv
    cases v with
    | environment c => obtain ⟨label, args, content, pb, pe⟩ := c; exact h _ _ _ _ _ hv
    | text | scope | command => trivial
  · intro h label args content pb pe hw
    exact h _ hw

theorem finishes_exact {e : Document} {d : Ast1.Document} (h : Unfolds e d) (hn : NoBeginOrEnd e) (hl : LabelsReadable e) :
    tryFrom d = .error .panic ↔ ¬ BelowBegin e := by
  obtain ⟨_, r, hr, hc⟩ := h.finishes ((noBeginOrEnd_iff e).1 hn) ((labelsReadable_iff e).1 hl) 0 0 d rfl
  rw [hr.sound, belowBegin_iff]
  rcases hc with ⟨h1, e', rfl⟩ | ⟨h1, rfl⟩
  · simp [h1]
  · simp [h1]

/-- There are no two texts side by side. -/
def Lone (xs : List Ast1.Chunk) : Prop := ∀ pre l t l' t' post, xs ≠ pre ++ .mk l (.text t) :: .mk l' (.text t') :: post

theorem join_lone {xs} (h : Lone xs) : Ast1.joinTexts xs = xs := by
  induction xs with
  | nil => rfl
  | cons c xs ih =>
    have hx := ih fun pre l t l' t' post he => h (c :: pre) l t l' t' post (by rw [he]; rfl)
    obtain ⟨l, v⟩ := c
    cases v with
    | scope s => simp [Ast1.joinTexts, hx]
    | command s => simp [Ast1.joinTexts, hx]
    | text t =>
      simp only [Ast1.joinTexts, hx]
      cases xs with
      | nil => rfl
      | cons y r =>
        obtain ⟨n, w⟩ := y
        cases w with
        | text t' => exact absurd rfl (h [] l t n t' r)
        | scope s => rfl
        | command s => rfl

theorem lone_cons {l v xs} (h : Lone xs) (hc : ∀ t m t' r, v = .text t → xs ≠ .mk m (.text t') :: r) : Lone (.mk l v :: xs) := by
  intro pre m t m' t' post he
  cases pre with
  | nil => injection he with h1 h2; injection h1 with _ h1; exact hc _ _ _ _ h1 h2
  | cons p pre => injection he with _ he; exact h _ _ _ _ _ _ he

theorem lone_append {a b : List Ast1.Chunk} {l v} (ha : Lone a) (hb : Lone b) (hv : ∀ t, v ≠ .text t) : Lone (a ++ .mk l v :: b) := by
  induction a with
  | nil => exact lone_cons hb fun t _ _ _ h => absurd h (hv t)
  | cons c a ih =>
    obtain ⟨n, w⟩ := c
    refine lone_cons (ih fun pre l t l' t' post he => ha (.mk n w :: pre) l t l' t' post (by rw [he]; rfl)) ?_
    intro t m t' r hw he
    cases a with
    | nil => injection he with h1 _; injection h1 with _ h1; exact hv _ h1
    | cons x a =>
      injection he with h1 _
      subst h1 hw
      exact ha [] _ _ _ _ _ rfl

theorem unfolds_head {cs ds} (h : Unfolds cs ds) {m t r} (he : ds = .mk m (.text t) :: r) : ∃ m' r', cs = .mk m' (.text t) :: r' := by
  cases h with
  | text h => cases he; exact ⟨_, _, rfl⟩
  | nil => cases he
  | scope => cases he
  | command => cases he
  | environment => cases he


theorem TextsApart.tail {c cs} (h : TextsApart (c :: cs)) : TextsApart cs := by
  intro lv hl
  have key : lv = cs ∨ Level (c :: cs) lv := by
    induction hl with
    | top => exact .inl rfl
    | scope _ hm ih =>
      rcases ih with rfl | ih
      · exact .inr (.scope .top (.tail _ hm))
      · exact .inr (.scope ih hm)
    | arg _ hm hm' ih =>
      rcases ih with rfl | ih
      · exact .inr (.arg .top (.tail _ hm) hm')
      · exact .inr (.arg ih hm hm')
    | envArg _ hm hm' ih =>
      rcases ih with rfl | ih
      · exact .inr (.envArg .top (.tail _ hm) hm')
      · exact .inr (.envArg ih hm hm')
    | envContent _ hm ih =>
      rcases ih with rfl | ih
      · exact .inr (.envContent .top (.tail _ hm))
      · exact .inr (.envContent ih hm)
  rcases key with rfl | key
  · intro pre l t l' t' post he
    exact h _ .top (c :: pre) l t l' t' post (by rw [he]; rfl)
  · exact h _ key

theorem TextsApart.content {l label args content pb pe cs} (h : TextsApart (.mk l (.environment (.mk label args content pb pe)) :: cs)) : TextsApart content := by
  intro lv hl
  refine h lv ?_
  induction hl with
  | top => exact .envContent .top (.head _)
  | scope _ hm ih => exact .scope ih hm
  | arg _ hm hm' ih => exact .arg ih hm hm'
  | envArg _ hm hm' ih => exact .envArg ih hm hm'
  | envContent _ hm ih => exact .envContent ih hm

theorem TextsApart.shift {k cs} (h : TextsApart cs) : TextsApart (cs.map (Chunk.shift k)) := by
  intro lv hl
  have hm : ∀ {l v}, .mk l v ∈ cs.map (Chunk.shift k) → ∃ l', .mk l' v ∈ cs := by
    intro l v hx
    obtain ⟨⟨l', v'⟩, h1, h2⟩ := List.mem_map.1 hx
    simp only [Chunk.shift] at h2
    injection h2 with _ h2
    subst h2
    exact ⟨l', h1⟩
  have key : lv = cs.map (Chunk.shift k) ∨ Level cs lv := by
    induction hl with
    | top => exact .inl rfl
    | scope _ hm' ih =>
      rcases ih with rfl | ih
      · obtain ⟨_, hx⟩ := hm hm'; exact .inr (.scope .top hx)
      · exact .inr (.scope ih hm')
    | arg _ hm' hm2 ih =>
      rcases ih with rfl | ih
      · obtain ⟨_, hx⟩ := hm hm'; exact .inr (.arg .top hx hm2)
      · exact .inr (.arg ih hm' hm2)
    | envArg _ hm' hm2 ih =>
      rcases ih with rfl | ih
      · obtain ⟨_, hx⟩ := hm hm'; exact .inr (.envArg .top hx hm2)
      · exact .inr (.envArg ih hm' hm2)
    | envContent _ hm' ih =>
      rcases ih with rfl | ih
      · obtain ⟨_, hx⟩ := hm hm'; exact .inr (.envContent .top hx)
      · exact .inr (.envContent ih hm')
  rcases key with rfl | key
  · intro pre l t l' t' post he
    obtain ⟨a, b, rfl, h1, h2⟩ := List.map_eq_append_iff.1 he
    obtain ⟨c1, b, rfl, h3, h4⟩ := List.map_eq_cons_iff.1 h2
    obtain ⟨c2, b, rfl, h5, h6⟩ := List.map_eq_cons_iff.1 h4
    obtain ⟨l1, v1⟩ := c1
    obtain ⟨l2, v2⟩ := c2
    simp only [Chunk.shift, Chunk.mk.injEq] at h3 h5
    obtain ⟨_, rfl⟩ := h3
    obtain ⟨_, rfl⟩ := h5
    exact h _ .top _ _ _ _ _ _ rfl
  · exact h _ key

theorem Unfolds.lone {e xs} (h : Unfolds e xs) (ht : TextsApart e) : Lone xs := by
  induction h with
  | nil => intro pre l t l' t' post he; cases pre <;> cases he
  | text h ih =>
    refine lone_cons (ih ht.tail) ?_
    intro t m t' r hv he
    obtain ⟨m', r', rfl⟩ := unfolds_head h he
    exact ht _ .top [] _ _ _ _ _ rfl
  | scope _ _ _ ih => exact lone_cons (ih ht.tail) (by intro t m t' r hv; cases hv)
  | command _ _ _ ih => exact lone_cons (ih ht.tail) (by intro t m t' r hv; cases hv)
  | environment _ _ _ _ _ _ _ ih2 ih3 =>
    refine lone_cons (lone_append (ih2 ht.content.shift) (ih3 ht.tail) (by intro t h; cases h)) (by intro t m t' r hv; cases hv)

/-- C114: when the conversion back panics, exactly, for documents in which no text follows a text: if there is something in an environment
that is numbered within the lines of its `\begin`. -/
theorem C114_panics (e : Document) (d : Ast1.Document) (h : toAst1 e = .ok d) (hn : NoBeginOrEnd e) (hl : LabelsReadable e) (ht : TextsApart e) :
    tryFrom d = .error .panic ↔ ¬ BelowBegin e := by
  obtain ⟨xs, hx, rfl⟩ := (C60 e d).1 h
  rw [join_lone (hx.lone ht)]
  exact finishes_exact hx hn hl

/-- C114: so it returns, with a document that is alike, if everything is below its `\begin`. -/
theorem C114_returns (e : Document) (d : Ast1.Document) (h : toAst1 e = .ok d) (hn : NoBeginOrEnd e) (hl : LabelsReadable e) (ht : TextsApart e) :
    (∃ e', tryFrom d = .ok e' ∧ Alike e' e) ↔ BelowBegin e := by
  have := C114_panics e d h hn hl ht
  constructor
  · rintro ⟨e', he', _⟩
    rw [he'] at this
    exact Classical.byContradiction fun hb => by cases this.2 hb
  · intro hb
    rcases C114_no_error e d h hn with ⟨e', he'⟩ | hp
    · exact ⟨e', he', (C114 e d e' h he').2 ⟨hn, hl⟩⟩
    · exact absurd hb (this.1 hp)

/-- C114 for parsed documents: going to stage 1 and back panics if and only if there is something in an environment that is numbered within
the lines of its `\begin`. -/
theorem C114_parsed_panics (s : Str) (e : Document) (h : fromStr s = .ok e) :
    ∃ d', toAst1 e = .ok d' ∧ (tryFrom d' = .error .panic ↔ ¬ BelowBegin e) ∧ ((∃ e', tryFrom d' = .ok e' ∧ Alike e' e) ↔ BelowBegin e) := by
  obtain ⟨d, hd, he⟩ := fromStr_parts h
  have hr : ReadyAll d := by
    intro lv hl
    refine ⟨Ast1.sane_parsed hd lv hl, ?_⟩
    intro l p lab args hm
    exact label_reads hd hl.level hm (.head _)
  obtain ⟨d', h1, h2⟩ := back_lines he hr
  have h3 := h2 0
  rw [map_shift_zero] at h3
  have h4 : toAst1 e = .ok d' := by
    rw [toAst1_eq h3, foldl_push_nomerge]
    exact displaced_nomerge h1 (Ast1.C09 s d hd d .top).2.1
  have hu : Unfolds e d' := by
    rcases rule2 0 e with ⟨xs, g1, g2⟩ | g1
    · rw [map_shift2_zero] at g1 g2
      rw [g1] at h3
      cases h3
      exact g2
    · rw [map_shift2_zero] at g1
      rw [g1] at h3
      cases h3
  have hn : NoBeginOrEnd e := fun label args hw => C22 d e he label args hw
  have hl : LabelsReadable e := (C83 e d' h4).1 (by rw [display_tryFrom he]; exact display_displaced h1)
  have hp := finishes_exact hu hn hl
  refine ⟨d', h4, hp, ?_⟩
  constructor
  · rintro ⟨e', he', _⟩
    rw [he'] at hp
    exact Classical.byContradiction fun hb => by cases hp.2 hb
  · intro hb
    rcases C114_no_error e d' h4 hn with ⟨e', he'⟩ | hq
    · exact ⟨e', he', (C114 e d' e' h4 he').2 ⟨hn, hl⟩⟩
    · exact absurd hb (hp.1 hq)

/-- An environment whose `\begin` takes two lines, with a text on its second line: it goes there and back; with a text on its first line, it panics. -/
theorem C114_panics_example : ∀ n, (BelowBegin [.mk 1 (.environment (.mk chars!"a" [] [.mk n (.text chars!"x")] ['\n'] []))] ↔ 2 ≤ n) ∧
    TextsApart [.mk 1 (.environment (.mk chars!"a" [] [.mk n (.text chars!"x")] ['\n'] []))] ∧
    NoBeginOrEnd [.mk 1 (.environment (.mk chars!"a" [] [.mk n (.text chars!"x")] ['\n'] []))] ∧
    LabelsReadable [.mk 1 (.environment (.mk chars!"a" [] [.mk n (.text chars!"x")] ['\n'] []))] := by
  intro n
  refine ⟨?_, ?_, ?_, ?_⟩
  · rw [belowBegin_iff]
    simp [AllChunks, Chunk.All, ChunkVariant.All, LowV, Environment.All, AllArgs, displayArgs, Chunk.lineNo]
    omega
  · intro lv hl
    have : lv.length ≤ 1 := by
      have key : ∀ lv, Level [.mk 1 (.environment (.mk chars!"a" [] [.mk n (.text chars!"x")] ['\n'] []))] lv →
          lv = [.mk 1 (.environment (.mk chars!"a" [] [.mk n (.text chars!"x")] ['\n'] []))] ∨ lv = [.mk n (.text chars!"x")] := by
        intro lv hl
        induction hl with
        | top => exact .inl rfl
        | scope _ hm ih => rcases ih with rfl | rfl <;> simp at hm
        | arg _ hm _ ih => rcases ih with rfl | rfl <;> simp at hm
        | envArg _ hm hm' ih =>
          rcases ih with rfl | rfl
          · simp at hm; obtain ⟨_, _, rfl, _⟩ := hm; cases hm'
          · simp at hm
        | envContent _ hm ih =>
          rcases ih with rfl | rfl
          · simp at hm; exact .inr (by simp [hm])
          · simp at hm
      rcases key lv hl with rfl | rfl <;> simp
    intro pre l t l' t' post he
    rw [he] at this
    simp at this
    omega
  · rw [noBeginOrEnd_iff]
    simp [AllChunks, Chunk.All, ChunkVariant.All, NotDelim, Environment.All, AllArgs]
  · rw [labelsReadable_iff]
    have : ReadableLabel chars!"a" := ⟨[.mk 1 (.text chars!"a")], by decide +kernel, by decide +kernel⟩
    simp [AllChunks, Chunk.All, ChunkVariant.All, LabelV, Environment.All, AllArgs, this]

end LatexAst.Ast2
