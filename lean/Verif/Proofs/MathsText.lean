import Verif.Proofs.MathsTotal

/-!
# Dollar maths in one text; the number of dollar signs
-/

namespace LatexAst.Ast3
open Spec

/-! ### Segments -/

theorem converts_segments {strict l p segs} (hl : 1 ≤ l) (hp : '$' ∉ p)
    (hs : ∀ s q, (s, q) ∈ segs → Segment.Ok s ∧ '$' ∉ q) :
    Converts strict [.mk l (.text (segmentsSource p segs))] (segmentsChunks l p segs) := by
  induction segs generalizing l p with
  | nil => simpa [segmentsSource, segmentsChunks] using Converts.text (strict := strict) (l := l) hp .nil
  | cons x r ih =>
    obtain ⟨⟨type, x⟩, q⟩ := x
    obtain ⟨⟨h1, h2⟩, h3⟩ := hs _ _ (.head _)
    simp only at h1 h2
    have := ih (l := l + p.count '\n' + x.count '\n') (p := q) (by omega) h3 fun s q hm => hs s q (.tail _ hm)
    cases type with
    | inline =>
      have := Converts.inline (l := l) hp h1 (h2 rfl) hl this
      have hx := h2 rfl
      simpa [segmentsSource, segmentsChunks, Segment.source, dollarsOf, textIf, hx] using this
    | outline =>
      have := Converts.display (l := l) hp h1 hl this
      simpa [segmentsSource, segmentsChunks, Segment.source, dollarsOf] using this

/-! ### Every text -/

theorem split_dollar (t : Str) : '$' ∉ t ∨ ∃ p r, t = p ++ '$' :: r ∧ '$' ∉ p := by
  induction t with
  | nil => exact .inl (by simp)
  | cons c t ih =>
    by_cases hc : c = '$'
    · subst hc; exact .inr ⟨[], t, rfl, by simp⟩
    · rcases ih with h | ⟨p, r, rfl, h⟩
      · exact .inl (by simp [h]; exact fun h => hc h.symm)
      · exact .inr ⟨c :: p, r, rfl, by simp [h]; exact fun h => hc h.symm⟩

/-- Every text is well formed or ends in open maths. -/
theorem text_total : ∀ n (t : Str) l, t.length ≤ n → 1 ≤ l →
    (∃ out, Converts false [.mk l (.text t)] out) ∨ OpenDollar t := by
  intro n
  induction n with
  | zero =>
    intro t l h hl
    have : t = [] := List.length_eq_zero_iff.1 (by omega)
    subst this
    exact .inl ⟨_, .text (by simp) .nil⟩
  | succ n ih =>
    intro t l h hl
    rcases split_dollar t with h0 | ⟨p, r, rfl, hp⟩
    · exact .inl ⟨_, .text h0 .nil⟩
    · simp at h
      cases r with
      | nil => exact .inr (.single hp (by simp))
      | cons c r =>
        by_cases hc : c = '$'
        · subst hc
          rcases split_dollar r with h1 | ⟨x, r1, rfl, hx⟩
          · exact .inr (.double hp h1)
          · rcases split_dollar r1 with h2 | ⟨y, r2, rfl, hy⟩
            · exact .inr (.half hp hx h2)
            · simp at h
              cases y with
              | nil =>
                rcases ih r2 (l + p.count '\n' + x.count '\n') (by omega) (by omega) with ⟨out, ho⟩ | ho
                · exact .inl ⟨_, .display hp hx hl ho⟩
                · exact .inr (.display hp hx ho)
              | cons c y =>
                rcases ih r2 (l + p.count '\n' + (x ++ c :: y).count '\n') (by omega) (by omega) with ⟨out, ho⟩ | ho
                · exact .inl ⟨_, .sloppy rfl hp hx hy (by simp) hl ho⟩
                · exact .inr (.sloppy hp hx hy (by simp) ho)
        · rcases split_dollar (c :: r) with h1 | ⟨x, r1, he, hx⟩
          · exact .inr (.single hp h1)
          · have hne : x ≠ [] := by
              rintro rfl
              simp at he; exact hc he.1
            have hlen := congrArg List.length he
            simp at hlen h
            rcases ih r1 (l + p.count '\n' + x.count '\n') (by omega) (by omega) with ⟨out, ho⟩ | ho
            · exact .inl ⟨_, by rw [he]; exact .inline hp hx hne hl ho⟩
            · exact .inr (by rw [he]; exact .inline hp hx hne ho)

theorem maths_plain (x : Str) (hx : '$' ∉ x) : ∃ out, mathsFromChunks ([] ++ textIf2 1 x) = .ok out := by
  unfold textIf2
  split
  · exact ⟨_, mathsFromChunks_converts (strict := true) .nil⟩
  · exact ⟨_, mathsFromChunks_converts (strict := true) (.text hx .nil)⟩

theorem runText_openDollar {t : Str} (h : OpenDollar t) : ∀ (s : MState) (l : Nat), Idle s → 1 ≤ l →
    ∃ t', runText mathsFromChunks t ⟨s, l, [], l⟩ = .ok t' ∧ t'.m.mode ≠ .none ∧ t'.m.bufferLine = s.bufferLine := by
  induction h with
  | single hp hx =>
    intro s l hs hl
    rw [runText_open hp hs.1, runText_plain hx]
    exact ⟨_, rfl, by simp [opened], by simp [opened]⟩
  | double hp hx =>
    intro s l hs hl
    rw [runText_open hp hs.1, runText_double (s := opened s l _ _) rfl hs.2, runText_plain hx]
    exact ⟨_, rfl, by simp [opened], by simp [opened]⟩
  | @half p x y hp hx hy =>
    intro s l hs hl
    rw [runText_open hp hs.1, runText_double (s := opened s l _ _) rfl hs.2, runText_append, runText_plain hx]
    simp only
    rw [runText_closing rfl, runText_plain hy]
    exact ⟨_, rfl, by simp, by simp [opened]⟩
  | @inline p x r hp hx hne _ ih =>
    intro s l hs hl
    obtain ⟨content, hc⟩ := maths_plain x hx
    rw [runText_open hp hs.1, runText_append, runText_plain hx]
    simp only [List.nil_append]
    rw [runText_close_inline (ms := []) rfl (by simp [hne]) (by omega) (by simpa [opened] using hs.2) hc]
    obtain ⟨t', h1, h2, h3⟩ := ih (closed (opened s l p (.singleDollar .dollars)) (l + p.count '\n') .dollars .inline content)
      (l + p.count '\n' + x.count '\n') ⟨rfl, rfl⟩ (by omega)
    exact ⟨t', h1, h2, h3⟩
  | @display p x r hp hx _ ih =>
    intro s l hs hl
    obtain ⟨content, hc⟩ := maths_plain x hx
    rw [runText_open hp hs.1, runText_double (s := opened s l _ _) rfl hs.2, runText_append, runText_plain hx]
    simp only [List.nil_append]
    rw [runText_closing rfl, runText_close_outline (ms := []) rfl (by omega) (by simpa [opened] using hs.2) hc]
    obtain ⟨t', h1, h2, h3⟩ := ih (closed { opened s l p (.singleDollar .dollars) with mode := .doubleClosing } (l + p.count '\n') .dollars .outline content)
      (l + p.count '\n' + x.count '\n') ⟨rfl, rfl⟩ (by omega)
    exact ⟨t', h1, h2, h3⟩
  | @sloppy p x y r hp hx hy hne _ ih =>
    intro s l hs hl
    obtain ⟨content, hc⟩ := maths_plain (x ++ y) (by simp [hx, hy])
    rw [runText_open hp hs.1, runText_double (s := opened s l _ _) rfl hs.2, runText_append, runText_plain hx]
    simp only [List.nil_append]
    rw [runText_closing rfl, runText_append, runText_plain hy]
    simp only
    rw [runText_close_outline (ms := []) rfl (by omega) (by simpa [opened] using hs.2) hc]
    obtain ⟨t', h1, h2, h3⟩ := ih (closed { opened s l p (.singleDollar .dollars) with mode := .doubleClosing } (l + p.count '\n') .dollars .outline content)
      (l + p.count '\n' + x.count '\n' + y.count '\n') ⟨rfl, rfl⟩ (by omega)
    exact ⟨t', h1, h2, h3⟩

/-- After well-formed chunks, a text that ends in open maths is rejected. -/
theorem openDollar_rejected {strict pre out t l} (hpre : Converts strict pre out) (hl : 1 ≤ l) (h : OpenDollar t) :
    ∃ line, mathsFromChunks (pre ++ [.mk l (.text t)]) = .error (.err ⟨line, .unclosedMaths⟩) := by
  obtain ⟨s0, h1, h2, h3⟩ := runMaths_converts hpre MState.init ⟨rfl, rfl⟩
  obtain ⟨t', h4, h5, h6⟩ := runText_openDollar h s0 l h2 hl
  refine ⟨t'.pushStr.m.bufferLine, ?_⟩
  rw [mathsFromChunks_eq, mathsLevel, runMaths_append, h1]
  simp only [runMaths, stepMaths, h2.1, stepMathsText, h4]
  simp [finishMaths, (pushStr_m t').1, h5, fail]

theorem openDollar_error {t l} (hl : 1 ≤ l) (h : OpenDollar t) :
    mathsFromChunks [.mk l (.text t)] = .error (.err ⟨0, .unclosedMaths⟩) := by
  obtain ⟨t', h4, h5, h6⟩ := runText_openDollar h MState.init l ⟨rfl, rfl⟩ hl
  rw [mathsFromChunks_eq, mathsLevel]
  simp only [runMaths, stepMaths, MState.init, stepMathsText] at *
  rw [h4]
  simp [finishMaths, (pushStr_m t').1, (pushStr_m t').2.2.2.1, h5, h6, fail]

/-! ### Dollar signs come in pairs -/

theorem dollarCount_append (a b : List Ast2.Chunk) : dollarCount (a ++ b) = dollarCount a + dollarCount b := by
  induction a with
  | nil => simp [dollarCount]
  | cons c a ih =>
    obtain ⟨l, v⟩ := c
    cases v <;> simp [dollarCount, ih]; omega

theorem dollarCount_congr {a b : List Ast2.Chunk} (h : a.map Ast2.Chunk.variant = b.map Ast2.Chunk.variant) :
    dollarCount a = dollarCount b := by
  induction a generalizing b with
  | nil => cases b with
    | nil => rfl
    | cons => simp at h
  | cons c a ih =>
    cases b with
    | nil => simp at h
    | cons c' b =>
      obtain ⟨l, v⟩ := c
      obtain ⟨l', v'⟩ := c'
      simp [Ast2.Chunk.variant] at h
      obtain ⟨rfl, h⟩ := h
      have := ih (by simpa [Ast2.Chunk.variant] using h)
      cases v <;> simp [dollarCount, this]

/-- The dollar signs read of the delimiters of the open maths block. -/
def modeDollars : MathsMode → Nat
  | .none => 0
  | .singleDollar .brackets => 0
  | .doubleDollar .brackets => 0
  | .singleDollar .dollars => 1
  | .doubleDollar .dollars => 2
  | .doubleClosing => 3

theorem md0 : modeDollars .none = 0 := rfl
theorem md1 : modeDollars (.singleDollar .dollars) = 1 := rfl
theorem md2 : modeDollars (.doubleDollar .dollars) = 2 := rfl
theorem md3 : modeDollars .doubleClosing = 3 := rfl
theorem modeDollars_bracket (k) : modeDollars (bracketMode k) = 0 := by cases k <;> rfl

/-- Invariant: `n` dollar signs have been read. -/
def DInv (n : Nat) (s : MState) : Prop := n % 2 = (modeDollars s.mode + dollarCount s.buffer) % 2

theorem mathsParity : ∀ n cs, Post (mathsFuel n cs) (fun _ => dollarCount cs % 2 = 0) (fun _ => True) := by
  intro n
  induction n with
  | zero => intro cs; trivial
  | succ n ih =>
    intro cs
    refine post_maths (fun pre s => DInv (dollarCount pre) s ∧ (s.mode = .none → s.buffer = [])) ?_ ?_ ?_ (fun _ _ _ => trivial)
    · exact ⟨rfl, fun _ => rfl⟩
    · rintro pre l v post s he ⟨hi, hb⟩
      have hpre : ∀ v : Ast2.ChunkVariant, (∀ t, v ≠ .text t) → dollarCount (pre ++ [.mk l v]) = dollarCount pre := by
        intro v hv
        rw [dollarCount_append]
        cases v with
        | text t => exact absurd rfl (hv t)
        | _ => simp [dollarCount]
      have hbuf : ∀ v : Ast2.ChunkVariant, (∀ t, v ≠ .text t) → s.mode ≠ .none → DInv (dollarCount (pre ++ [.mk l v])) (s.pushBuffer l v) ∧
          ((s.pushBuffer l v).mode = .none → (s.pushBuffer l v).buffer = []) := by
        intro v hv hm
        refine ⟨?_, fun h => absurd h hm⟩
        rw [hpre v hv]
        unfold DInv at *
        simp only [MState.pushBuffer, dollarCount_append]
        have : dollarCount [.mk l v] = 0 := by
          cases v with
          | text t => exact absurd rfl (hv t)
          | _ => rfl
        rw [this]; exact hi
      have hout : ∀ (v : Ast2.ChunkVariant) (o), (∀ t, v ≠ .text t) → DInv (dollarCount (pre ++ [.mk l v])) { s with out := o } ∧
          (s.mode = .none → s.buffer = []) := by
        intro v o hv
        exact ⟨by rw [hpre v hv]; exact hi, hb⟩
      refine post_step ?_ ?_ ?_ ?_ ?_
      · rintro ⟨label, args⟩ rfl
        refine post_command ?_ ?_ ?_ ?_ ?_ ?_ ?_ ?_
        · intros; trivial
        · intro k hm hl
          refine ⟨?_, fun h => absurd h (bracketMode_ne_none k)⟩
          rw [hpre _ (by simp)]
          simp only [DInv, modeDollars_bracket, hm, md0, md1, md2, md3, hb hm] at hi ⊢
          exact hi
        · intro k hm hl
          exact ⟨by rw [hpre _ (by simp)]; exact hi, hb⟩
        · intro k hm hl hd
          refine (ih s.buffer).mono ?_ fun _ h => h
          intro content h1
          refine ⟨?_, fun _ => rfl⟩
          rw [hpre _ (by simp)]
          simp only [DInv, hm, modeDollars_bracket, md0, md1, md2, md3, dollarCount] at hi ⊢
          omega
        · intros; trivial
        · intro k d hm hl hd hd0
          exact ⟨by rw [hpre _ (by simp)]; exact hi, hb⟩
        · intro hm hl
          refine post_tryCommand ?_
          cases hr : tryArgs (mathsFuel n) args with
          | error f => trivial
          | ok a => exact hout _ _ (by simp)
        · intro hm _; exact hbuf _ (by simp) hm
      · rintro ⟨inner, sv⟩ rfl hm
        refine post_tryScope ?_
        cases hr : mathsFuel n inner with
        | error f => trivial
        | ok a => exact hout _ _ (by simp)
      · rintro ⟨label, args, content, pb, pe⟩ rfl hm
        refine post_tryEnvironment ?_
        cases hr : tryArgs (mathsFuel n) args with
        | error f => trivial
        | ok a =>
          change Post (mathsFuel n content) _ _
          cases hr2 : mathsFuel n content with
          | error f => trivial
          | ok a => exact hout _ _ (by simp)
      · intro hnc hm ht
        by_cases hv : ∃ t, v = .text t
        · obtain ⟨t, rfl⟩ := hv
          obtain ⟨k, hk⟩ := ht t rfl
          refine ⟨?_, fun h => absurd h hm⟩
          simp only [DInv, MState.pushBuffer, dollarCount_append, dollarCount, hk, modeDollars_bracket] at hi ⊢
          omega
        · exact hbuf v (fun t h => hv ⟨t, h⟩) hm
      · rintro str rfl hbr
        refine post_text (fun p t => DInv (dollarCount pre + p.count '$') t.m ∧ (t.m.mode = .none → t.m.buffer = []) ∧ '$' ∉ t.textBuffer ∧
            ∀ k, t.m.mode ≠ bracketMode k)
          ⟨by simpa using hi, hb, by simp, hbr⟩ ?_ ?_
        · rintro p c q t hstr' ⟨ht1, ht2, ht3, ht4⟩
          unfold stepChar
          generalize ht' : (if c = '\n' then { t with cursorLine := t.cursorLine + 1 } else t : TState) = t'
          have hm' : t'.m = t.m := by subst ht'; split <;> rfl
          have hb' : t'.textBuffer = t.textBuffer := by subst ht'; split <;> rfl
          rw [← hm'] at ht1 ht2 ht4
          rw [← hb'] at ht3
          simp only
          split
          · rename_i hc
            subst hc
            have hcnt : (p ++ ['$']).count '$' = p.count '$' + 1 := by simp
            have hclose : ∀ type, modeDollars t'.m.mode % 2 = 1 → Post (closeDollars (mathsFuel n) t' type)
                (fun t => DInv (dollarCount pre + (p ++ ['$']).count '$') t.m ∧ (t.m.mode = .none → t.m.buffer = []) ∧ '$' ∉ t.textBuffer ∧
                  ∀ k, t.m.mode ≠ bracketMode k) (fun _ => True) := by
              intro type hodd
              refine post_closeDollars ?_
              refine post_rebase (fun _ => trivial) ?_
              intro buf' h1 _
              refine (ih buf').mono ?_ fun _ h => h
              intro content h2
              have h3 : dollarCount buf' = dollarCount t'.m.buffer := by
                rw [dollarCount_congr h1]
                split
                · rfl
                · simp [dollarCount_append, dollarCount, List.count_eq_zero.2 ht3]
              refine ⟨?_, fun _ => rfl, by simp, by intro k h; exact bracketMode_ne_none k h.symm⟩
              rw [hcnt]
              simp only [DInv, md0, md1, md2, md3, dollarCount] at ht1 ⊢
              omega
            obtain ⟨e1, e2, e3, e4, e5, e6⟩ := pushStr_m t'
            rw [hcnt] at *
            refine post_dollar ?_ ?_ ?_ ?_ ?_ ?_
            · intro hm
              refine ⟨?_, by simp, by simp [e6], by intro k; cases k <;> simp [bracketMode]⟩
              simp only [DInv, md0, md1, md2, md3, hm, e3] at ht1 ⊢
              omega
            · intro hm h1 h2
              refine ⟨?_, by simp, ht3, by intro k; cases k <;> simp [bracketMode]⟩
              simp only [DInv, md0, md1, md2, md3, hm] at ht1 ⊢
              omega
            · intro hm _; exact hclose _ (by rw [hm]; rfl)
            · intro hm
              refine ⟨?_, by simp, ht3, by intro k; cases k <;> simp [bracketMode]⟩
              simp only [DInv, md0, md1, md2, md3, hm] at ht1 ⊢
              omega
            · intro hm; exact hclose _ (by rw [hm]; rfl)
            · intro k hm; exact absurd hm (ht4 k)
          · rename_i hne
            refine ⟨?_, ht2, ?_, ht4⟩
            · have : (p ++ [c]).count '$' = p.count '$' := by simp [hne]
              rw [this]; exact ht1
            · simp [ht3]; exact fun h => hne h.symm
        · rintro t ⟨ht1, ht2, ht3, ht4⟩
          obtain ⟨e1, e2, e3, e4, e5, e6⟩ := pushStr_m t
          refine ⟨?_, by rw [e1, e3]; exact ht2⟩
          simp only [DInv, dollarCount_append, dollarCount, e1, e3] at ht1 ⊢
          omega
    · rintro s ⟨hi, hb⟩ hm
      simp only [DInv, hm, md0, md1, md2, md3, hb hm, dollarCount] at hi
      omega

/-- A sequence with an odd number of dollar signs is never accepted. -/
theorem odd_dollars {cs out} (h : mathsFromChunks cs = .ok out) : dollarCount cs % 2 = 0 := by
  have := post_fromChunks (cs := cs) (E := fun _ => True) fun n => (mathsParity n cs).mono (fun _ h => h) (fun _ _ => .inr trivial)
  rw [h] at this
  exact this

end LatexAst.Ast3
