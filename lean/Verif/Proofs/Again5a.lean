import Verif.Spec.Again5
import Verif.Proofs.Again4b

/-! What follows the document environment, going to stage 2 and back: texts put together. -/

namespace LatexAst.Ast3
open Spec

/-- Texts put together, without lines. -/
def jv : List Ast2.ChunkVariant → List Ast2.ChunkVariant
  | [] => []
  | .text t :: r =>
    match jv r with
    | .text t' :: r' => .text (t ++ t') :: r'
    | r' => .text t :: r'
  | c :: r => c :: jv r

def VText (v : Ast2.ChunkVariant) : Prop := ∃ t, v = .text t

theorem jv_other {v} (r) (h : ¬ VText v) : jv (v :: r) = v :: jv r := by
  cases v with
  | text t => exact absurd ⟨t, rfl⟩ h
  | _ => rfl

theorem variants_join : ∀ D : List Ast2.Chunk, (Ast2.joinTexts D).map Ast2.Chunk.variant = jv (D.map Ast2.Chunk.variant)
  | [] => rfl
  | .mk l v :: D => by
    have ih := variants_join D
    cases v with
    | text t =>
      simp only [List.map_cons, Ast2.Chunk.variant, jv, Ast2.joinTexts, ← ih]
      cases hj : Ast2.joinTexts D with
      | nil => rfl
      | cons c R => obtain ⟨m, w⟩ := c; cases w <;> rfl
    | _ =>
      rw [Ast2.joinTexts_other _ _ (by intro l t h; cases h), List.map_cons, List.map_cons, ih]
      rfl

/-- Nothing stays in front of a text but the text. -/
theorem jv_head (vs) : ∃ r R, ∀ p, jv (.text p :: vs) = .text (p ++ r) :: R := by
  cases hj : jv vs with
  | nil => exact ⟨[], [], fun p => by simp [jv, hj]⟩
  | cons v R =>
    cases v with
    | text t => exact ⟨t, R, fun p => by simp [jv, hj]⟩
    | command c => exact ⟨[], .command c :: R, fun p => by simp [jv, hj]⟩
    | scope c => exact ⟨[], .scope c :: R, fun p => by simp [jv, hj]⟩
    | environment c => exact ⟨[], .environment c :: R, fun p => by simp [jv, hj]⟩

theorem jv_text_text (a b vs) : jv (.text a :: .text b :: vs) = jv (.text (a ++ b) :: vs) := by
  obtain ⟨r, R, h⟩ := jv_head vs
  rw [h]
  have : jv (.text a :: .text b :: vs) = match jv (.text b :: vs) with
    | .text t' :: r' => .text (a ++ t') :: r'
    | r' => .text a :: r' := rfl
  rw [this, h]
  simp

theorem jv_text_other {v} (p r) (h : ¬ VText v) : jv (.text p :: v :: r) = .text p :: v :: jv r := by
  have : jv (.text p :: v :: r) = match jv (v :: r) with
    | .text t' :: r' => .text (p ++ t') :: r'
    | r' => .text p :: r' := rfl
  rw [this, jv_other r h]
  cases v with
  | text t => exact absurd ⟨t, rfl⟩ h
  | _ => rfl

theorem jv_congr {r r'} (h : jv r = jv r') : ∀ a, jv (a ++ r) = jv (a ++ r')
  | [] => h
  | v :: a => by
    have ih := jv_congr h a
    cases v with
    | text t => simp only [List.cons_append, jv, ih]
    | _ => simp only [List.cons_append, jv, ih]

theorem jv_others {ms} (h : ∀ v ∈ ms, ¬ VText v) (r) : jv (ms ++ r) = ms ++ jv r := by
  induction ms with
  | nil => rfl
  | cons v ms ih => rw [List.cons_append, jv_other _ (h v (.head _)), ih fun w hw => h w (.tail _ hw)]; rfl

theorem jv_split {c} (h : ¬ VText c) (a b) : jv (a ++ c :: b) = jv a ++ c :: jv b := by
  induction a with
  | nil => exact jv_other b h
  | cons v a ih =>
    cases v with
    | text t =>
      simp only [List.cons_append, jv, ih]
      cases hj : jv a with
      | nil =>
        cases c with
        | text t' => exact absurd ⟨t', rfl⟩ h
        | _ => rfl
      | cons w R => cases w <;> rfl
    | _ => simp only [List.cons_append, jv, ih]

theorem jv_pieces (left : List Chunk) (a vs) : jv (.text a :: (left.map (fun c => Ast2.ChunkVariant.text c.variant.display) ++ vs)) =
    jv (.text (a ++ displayChunks left) :: vs) := by
  induction left generalizing a with
  | nil => simp [displayChunks]
  | cons c left ih =>
    obtain ⟨l, v⟩ := c
    simp only [List.map_cons, List.cons_append]
    rw [jv_text_text, ih]
    simp [displayChunks, Chunk.display, Chunk.variant]

theorem jv_empty (vs) : (jv (.text [] :: vs) = jv vs) ∨ jv (.text [] :: vs) = .text [] :: jv vs := by
  cases hj : jv vs with
  | nil => right; simp [jv, hj]
  | cons v R =>
    cases v with
    | text t => left; simp [jv, hj]
    | _ => right; simp [jv, hj]

/-- A delimiter in front is a text in front. -/
theorem jv_prepend (δ p : Str) (A : List Ast2.Chunk) (vs) :
    jv (.text p :: ((prependDollars δ A).map Ast2.Chunk.variant ++ vs)) = jv (.text (p ++ δ) :: (A.map Ast2.Chunk.variant ++ vs)) := by
  cases A with
  | nil => simp only [prependDollars, List.map_cons, List.map_nil, Ast2.Chunk.variant, List.cons_append, List.nil_append, jv_text_text]
  | cons c A =>
    obtain ⟨l, v⟩ := c
    cases v with
    | text t => simp only [prependDollars, List.map_cons, Ast2.Chunk.variant, List.cons_append, jv_text_text, List.append_assoc]
    | _ => simp only [prependDollars, List.map_cons, Ast2.Chunk.variant, List.cons_append, jv_text_text]

/-- The block of a formula in dollar signs, texts put together. -/
theorem jv_block {k n ms pieces content block} (ht : Textless ms) (hp : ∀ c ∈ pieces, IsPiece c) (hu : Unfolds (ms ++ pieces) content)
    (hb : Delimited .dollars k n content block) (p : Str) (vs) :
    ∃ Ms, Unfolds ms Ms ∧ jv (.text p :: (block.map Ast2.Chunk.variant ++ vs)) =
      jv (.text (p ++ dollarsOf k) :: (Ms.map Ast2.Chunk.variant ++ .text (displayChunks pieces ++ dollarsOf k) :: vs)) := by
  obtain ⟨Ms, L, rfl, h1, h2⟩ := unfolds_split hu
  refine ⟨Ms, h1, ?_⟩
  have hm := unfolds_textless ht h1
  rcases List.eq_nil_or_concat pieces with rfl | ⟨left, last, rfl⟩
  · cases h2
    rw [List.append_nil] at hb
    rw [block_plain hb hm, jv_prepend]
    simp [Ast2.Chunk.variant, displayChunks]
  · rw [List.concat_eq_append] at *
    obtain ⟨L1, L2, rfl, h3, h4⟩ := unfolds_split h2
    have hq := hp last (by simp)
    rw [unfolds_piece hq h4, ← List.append_assoc] at hb
    rw [block_text hb, jv_prepend]
    have hL := unfolds_pieces (fun c hc => hp c (by simp [hc])) h3
    simp only [List.map_append, List.map_cons, List.map_nil, hL, Ast2.Chunk.variant, List.append_assoc, List.cons_append, List.nil_append]
    apply jv_congr (a := _ :: _)
    have e : displayChunks (left ++ [last]) = displayChunks left ++ last.variant.display := by
      obtain ⟨l, v⟩ := last
      simp [displayChunks_append, displayChunks, Chunk.display, Chunk.variant]
    rw [e]
    have := jv_pieces left [] (.text (last.variant.display ++ dollarsOf k) :: vs)
    simp only [List.nil_append] at this
    have h5 := jv_text_text (displayChunks left) (last.variant.display ++ dollarsOf k) vs
    rw [← List.append_assoc] at h5
    rw [← h5]
    rw [← this]
    cases left with
    | nil => simp only [List.map_nil, List.nil_append, jv_text_text]
    | cons c left => simp only [List.map_cons, List.cons_append, jv_text_text, List.nil_append]

theorem not_vtext {Ms : List Ast2.Chunk} (h : ∀ c ∈ Ms, NotText c) : ∀ v ∈ Ms.map Ast2.Chunk.variant, ¬ VText v := by
  intro v hv
  obtain ⟨c, hc, rfl⟩ := List.mem_map.1 hv
  rintro ⟨t, ht⟩
  exact h c hc t ht

/-- The formula is found in the texts put together. -/
theorem found_joined {k : MathsType} {p T : Str} {Ms D : List Ast2.Chunk} {vs} (hm : ∀ c ∈ Ms, NotText c) (hT : '$' ∉ T)
    (hne : k = .inline → Ms ≠ [] ∨ T ≠ [])
    (hD : D.map Ast2.Chunk.variant = jv (.text (p ++ dollarsOf k) :: (Ms.map Ast2.Chunk.variant ++ .text (T ++ dollarsOf k) :: vs))) :
    ∃ l y X Ms' r R, D = .mk l (.text (p ++ '$' :: y)) :: X ∧ Ms'.map Ast2.Chunk.variant = Ms.map Ast2.Chunk.variant ∧
      (.text r :: R.map Ast2.Chunk.variant) = jv (.text [] :: vs) ∧
      ∀ l', ∃ m, Formula ⟨l', [], y, X⟩ [] k (Ms' ++ textIf2 m T) ⟨m, T, r, R⟩ := by
  obtain ⟨r, R, hr⟩ := jv_head vs
  have step : ∃ l y X Ms' R', D = .mk l (.text (p ++ dollarsOf k ++ y)) :: X ∧ Ms'.map Ast2.Chunk.variant = Ms.map Ast2.Chunk.variant ∧
      R'.map Ast2.Chunk.variant = R ∧
      ∀ l' z, dollarsOf k = '$' :: z → ∃ m, ToDollar ⟨l', [], y, X⟩ [] Ms' ⟨m, T, z ++ r, R'⟩ := by
    cases Ms with
    | nil =>
      rw [List.map_nil, List.nil_append, jv_text_text, hr] at hD
      obtain ⟨l, X, rfl, hX⟩ := variants_cons hD
      refine ⟨l, T ++ dollarsOf k ++ r, X, [], X, by simp, rfl, hX, fun l' z hz => ⟨l', ?_⟩⟩
      have := ToDollar.here (l := l') (q := []) (r := z ++ r) (rest := X) hT
      rw [hz]
      simpa using this
    | cons c Ms =>
      have hc : ¬ VText c.variant := by rintro ⟨t, ht⟩; exact hm c (.head _) t ht
      rw [List.map_cons, List.cons_append, jv_text_other _ _ hc, jv_others (not_vtext fun c hc => hm c (.tail _ hc)), hr] at hD
      obtain ⟨l, X, rfl, hX⟩ := variants_cons hD
      rw [← List.cons_append] at hX
      obtain ⟨Ms', Y, rfl, h1, h2⟩ := variants_append hX
      obtain ⟨m, R', rfl, h3⟩ := variants_cons h2
      refine ⟨l, [], Ms' ++ .mk m (.text (T ++ dollarsOf k ++ r)) :: R', Ms', R', by simp, by rw [h1, List.map_cons], h3, fun l' z hz => ⟨m, ?_⟩⟩
      have hn : ∀ c ∈ Ms', NotText c := variants_notText (E := c :: Ms) (by rw [h1, List.map_cons]) hm
      have := ToDollar.later (l := l') (q := []) (x := []) (by simp) hn (ToDollar.here (l := m) (q := []) (r := z ++ r) (rest := R') hT)
      rw [hz]
      simpa [textIf] using this
  obtain ⟨l, y, X, Ms', R', rfl, h1, h2, h3⟩ := step
  have hnil : (.text r :: R'.map Ast2.Chunk.variant) = jv (.text [] :: vs) := by rw [hr, h2]; rfl
  cases k with
  | inline =>
    refine ⟨l, y, X, Ms', r, R', by simp [dollarsOf], h1, hnil, fun l' => ?_⟩
    obtain ⟨m, h4⟩ := h3 l' [] rfl
    refine ⟨m, .inline h4 ?_⟩
    refine (hne rfl).imp (fun h h' => h ?_) id
    subst h'
    exact variants_nil h1.symm
  | outline =>
    refine ⟨l, '$' :: y, X, Ms', r, R', by simp [dollarsOf], h1, hnil, fun l' => ?_⟩
    obtain ⟨m, h4⟩ := h3 l' ['$'] rfl
    refine ⟨m, ?_⟩
    have := Formula.display (p := ⟨l', [], '$' :: y, X⟩) (.here (x := []) (by simp)) rfl h4 (.here (x := []) (q := T) (r := r) (by simp))
    simpa using this

/-! ### what it gives -/

theorem mem_join_other {d : Ast2.Chunk} (hd : ¬ VText d.variant) : ∀ {cds : List Ast2.Chunk}, d ∈ Ast2.joinTexts cds → d ∈ cds
  | [], h => h
  | .mk l v :: D, h => by
    have ih := mem_join_other hd (cds := D)
    cases v with
    | text t =>
      simp only [Ast2.joinTexts] at h
      cases hj : Ast2.joinTexts D with
      | nil =>
        rw [hj] at h
        simp only [List.mem_cons, List.not_mem_nil, or_false] at h
        exact absurd ⟨t, by rw [h]; rfl⟩ hd
      | cons c R =>
        obtain ⟨m, w⟩ := c
        rw [hj] at h ih
        cases w <;> simp only [List.mem_cons] at h ih ⊢ <;> rcases h with h | h <;>
          first
          | exact absurd ⟨_, by rw [h]; rfl⟩ hd
          | (right; apply ih; simp [h])
          | (right; apply ih; exact h)
    | _ =>
      rw [Ast2.joinTexts_other _ _ (by intro l t h; cases h)] at h
      rcases List.mem_cons.1 h with h | h
      · exact h ▸ .head _
      · exact .tail _ (ih h)

theorem pieces_no_dollar : ∀ {pieces : List Chunk}, (∀ c ∈ pieces, IsPiece c) → '$' ∉ displayChunks pieces
  | [], _ => by simp [displayChunks]
  | .mk l v :: r, h => by
    have h1 := piece_no_dollar (h _ (.head _))
    have h2 := pieces_no_dollar (pieces := r) fun c hc => h c (.tail _ hc)
    simp only [displayChunks, Chunk.display, List.mem_append, not_or]
    exact ⟨h1, h2⟩

theorem gives_front {l b p ps X o out} (hp : '$' ∉ p) (hc : CutsTo p ps) (hy : Yields b (.mk l (.text p) :: X) o)
    (hX : ∀ o', Yields b X o' → Gives o' out) : Gives o (ps ++ out) := by
  obtain ⟨o', ho'⟩ := yields_total b X
  rw [yields_unique hy (.text hp ho')]
  rcases hX o' ho' with rfl | ⟨raw, rfl, h⟩
  · exact .inl rfl
  · refine .inr ⟨_, rfl, ?_⟩
    rw [paragraphs_append, noLines_append, paragraphs_text hc.1 hc.2, h, ← noLines_append]

/-- Starting without a text. -/
theorem gives_start {vs D b o out} (h : ∀ D b o, D.map Ast2.Chunk.variant = jv (.text [] :: vs) → Yields b D o → Gives o out)
    (hD : D.map Ast2.Chunk.variant = jv vs) (hy : Yields b D o) : Gives o out := by
  rcases jv_empty vs with h1 | h1
  · exact h D b o (by rw [h1, hD]) hy
  · exact h (.mk 0 (.text []) :: D) b o (by rw [h1, ← hD]; rfl) (yields_empty.2 hy)

theorem Rejoins.gives {p cs out} (h : Rejoins p cs out) : '$' ∉ p → ∀ {ds D b o}, Unfolds cs ds →
    D.map Ast2.Chunk.variant = jv (.text p :: ds.map Ast2.Chunk.variant) → Yields b D o → Gives o out := by
  induction h with
  | @nil p ps hc =>
    intro hp ds D b o hu hD hy
    cases hu
    obtain ⟨l, X, rfl, hX⟩ := variants_cons (D := D) hD
    rw [variants_nil hX] at hy
    have := gives_front (out := []) hp hc hy fun o' h => gives_nil h
    simpa using this
  | @piece p c rest out hc _ ih =>
    intro hp ds D b o hu hD hy
    obtain ⟨d1, d2, rfl, h1, h2⟩ := unfolds_cons hu
    rw [unfolds_piece hc h1] at hD
    simp only [List.map_append, List.map_cons, List.map_nil, Ast2.Chunk.variant, List.cons_append, List.nil_append, jv_text_text] at hD
    refine ih ?_ h2 hD hy
    intro h
    rcases List.mem_append.1 h with h | h
    · exact hp h
    · exact piece_no_dollar hc h
  | @other p ps c c' rest out hc n1 n2 n3 hr _ ih =>
    intro hp ds D b o hu hD hy
    obtain ⟨d1, d2, rfl, h1, h2⟩ := unfolds_cons hu
    have hd : ∃ d, d1 = [d] ∧ ¬ VText d.variant := by
      obtain ⟨l, v⟩ := c
      cases h1 with
      | text => exact absurd rfl (n1 _)
      | «break» => exact absurd rfl (n2 _)
      | scope _ h => cases h; exact ⟨_, rfl, by rintro ⟨t, h⟩; cases h⟩
      | command _ h => cases h; exact ⟨_, rfl, by rintro ⟨t, h⟩; cases h⟩
      | environment _ _ h => cases h; exact ⟨_, rfl, by rintro ⟨t, h⟩; cases h⟩
      | maths => exact absurd rfl (n3 _)
    obtain ⟨d, rfl, hd⟩ := hd
    rw [List.singleton_append, List.map_cons, jv_text_other _ _ hd] at hD
    obtain ⟨l, X, rfl, hX⟩ := variants_cons hD
    obtain ⟨l2, D2, rfl, hD2⟩ := variants_cons hX
    refine gives_front hp hc hy fun o' ho' => ?_
    have := hr.resettled [d] [.mk l2 d.variant] D2 b o' out h1 rfl (by simpa using ho') fun b' o2 h =>
      gives_start (fun D b o hD hy => ih (by simp) h2 hD hy) hD2 h
    simpa using this
  | @brackets p ps l k content content' rest out hc hw hr _ _ ih1 ih2 =>
    intro hp ds D b o hu hD hy
    cases hu with
    | @maths _ _ _ _ cds block _ ds' hl h1 h2 h3 =>
      have hblock : block.map Ast2.Chunk.variant = .command (.mk (openLabel k) []) :: (cds.map Ast2.Chunk.variant ++ [.command (.mk (closeLabel k) [])]) := by
        cases h2 <;> simp [Ast2.Chunk.variant, openLabel, closeLabel]
      have n : ∀ c, ¬ VText (.command c) := by rintro c ⟨t, h⟩; cases h
      rw [List.map_append, variants_shift, hblock, List.cons_append, List.append_assoc, List.singleton_append, jv_text_other _ _ (n _), jv_split (n _)] at hD
      obtain ⟨l0, X, rfl, hX⟩ := variants_cons hD
      obtain ⟨l1, D1, rfl, hv1⟩ := variants_cons hX
      obtain ⟨D4, D2, rfl, hv4, hv2⟩ := variants_append hv1
      obtain ⟨l2, D3, rfl, hv3⟩ := variants_cons hv2
      refine gives_front hp hc hy fun o1 ho1 => ?_
      have hno : ∀ c ∈ D4, NotOfKind k c := by
        intro c hc
        have hm : c.variant ∈ jv (cds.map Ast2.Chunk.variant) := by rw [← hv4]; exact List.mem_map.2 ⟨c, hc, rfl⟩
        rw [← variants_join] at hm
        obtain ⟨d, hd, he⟩ := List.mem_map.1 hm
        intro args
        rw [← he]
        by_cases ht : VText d.variant
        · obtain ⟨t, ht⟩ := ht
          rw [ht]
          exact ⟨(by intro h; cases h), by intro h; cases h⟩
        · obtain ⟨x, hr⟩ := hr
          refine resettles_without hr hw h1 d ?_ args
          exact mem_join_other ht hd
      obtain ⟨i, hi⟩ := yields_total 0 D4
      obtain ⟨o', ho'⟩ := yields_total l1 D3
      rw [yields_unique ho1 (.brackets (notOfKind_inside hno) hi ho')]
      exact Gives.block (gives_start (fun D b o hD hy => ih1 (by simp) h1 hD hy) hv4 hi)
        (gives_start (fun D b o hD hy => ih2 (by simp) h3 hD hy) hv3 ho')
  | @dollars p ps l k ms ms' pieces qs rest out hc ht hr hp' hne hq _ ih =>
    intro hp ds D b o hu hD hy
    cases hu with
    | @maths _ _ _ _ cds block _ ds' hl h1 h2 h3 =>
      rw [List.map_append, variants_shift] at hD
      obtain ⟨Ms, hM, hj⟩ := jv_block ht hp' h1 h2 p (ds'.map Ast2.Chunk.variant)
      rw [hj] at hD
      have hm := unfolds_textless ht hM
      have hT : '$' ∉ displayChunks pieces := by
        exact pieces_no_dollar hp'
      have hne' : k = .inline → Ms ≠ [] ∨ displayChunks pieces ≠ [] := by
        intro hk
        by_cases h : ms = []
        · right
          intro h'
          subst h
          have := hne hk
          cases pieces with
          | nil => exact this rfl
          | cons c r =>
            obtain ⟨l, v⟩ := c
            simp only [displayChunks, Chunk.display, List.append_eq_nil_iff] at h'
            exact piece_ne (hp' _ (.head _)) h'.1
        · left
          rintro rfl
          exact h (textless_nil ht hM)
      obtain ⟨l0, y, X, Ms', r, R, rfl, hM', hR, hF⟩ := found_joined hm hT hne' hD
      obtain ⟨m, hf⟩ := hF (l0 + p.count '\n')
      by_cases hcn : Countable m (Ms' ++ textIf2 m (displayChunks pieces))
      · obtain ⟨i, hi⟩ := yields_total 0 ((Ms' ++ textIf2 m (displayChunks pieces)).map (countFrom m))
        obtain ⟨o', ho'⟩ := yields_total b (.mk (m + (displayChunks pieces).count '\n') (.text r) :: R)
        rw [yields_unique hy (.formula hp hf hcn hi ho')]
        have hi2 : Gives i (ms' ++ qs) := by
          rw [List.map_append] at hi
          refine hr.resettled Ms _ _ 0 i qs hM ((variants_count _ _).trans hM') hi ?_
          intro b' o' h
          have : (textIf2 m (displayChunks pieces)).map (countFrom m) = textIf2 (m - (m - 1)) (displayChunks pieces) := by
            unfold textIf2; split <;> rfl
          rw [this] at h
          have h' : Yields b' (.mk (m - (m - 1)) (.text (displayChunks pieces)) :: []) o' := by
            unfold textIf2 at h
            split at h
            · rename_i he
              rw [he]
              exact yields_empty.2 h
            · exact h
          have := gives_front (out := []) hT hq h' fun o' h => gives_nil h
          simpa using this
        have ho2 : Gives o' out := ih (by simp) h3 (by simpa [Ast2.Chunk.variant] using hR) ho'
        rcases hi2 with rfl | ⟨raw, rfl, hi2⟩
        · exact .inl rfl
        · rcases ho2 with rfl | ⟨raw2, rfl, ho2⟩
          · exact .inl rfl
          · refine .inr ⟨_, rfl, ?_⟩
            simp only [List.append_nil, List.append_assoc]
            rw [paragraphs_append, List.singleton_append, paragraphs_other (by intro t h; cases h), noLines_append, noLines_append,
              paragraphs_text hc.1 hc.2]
            simp only [noLines, ho2, ChunkVariant.noLines, MathsBlock.noLines, hi2]
      · exact .inl (yields_unique hy (.uncountable hp hf hcn))

end LatexAst.Ast3
