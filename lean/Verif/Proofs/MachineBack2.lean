import Verif.Model.MachineBack
import Verif.Proofs.MachineLines
import Verif.Proofs.Machine
import Verif.Proofs.Depth1
import Verif.Proofs.Back2

/-! Stage 2 back to stage 1 with machine integers. -/

namespace LatexAst.Ast1

theorem LinesBelow.sub {B a b} (h : LinesBelow B b) (hs : ∀ c ∈ a, c ∈ b) : LinesBelow B a := by
  intro k lv hl l v hm
  cases k with
  | zero =>
    cases hl
    exact h 0 _ .top l v (hs _ hm)
  | succ k =>
    obtain ⟨inner, h1, h2⟩ := levelAt_head hl
    rcases h2 with ⟨l', sv, h2⟩ | ⟨l', lab, args, p, sv, h2, h3⟩
    · exact h _ _ (levelAt_scope (hs _ h2) h1) l v hm
    · exact h _ _ (levelAt_arg (hs _ h2) h3 h1) l v hm

theorem LinesBelow.left {B a b} (h : LinesBelow B (a ++ b)) : LinesBelow B a := h.sub fun _ hc => List.mem_append_left _ hc
theorem LinesBelow.right {B a b} (h : LinesBelow B (a ++ b)) : LinesBelow B b := h.sub fun _ hc => List.mem_append_right _ hc

theorem LinesBelow.scope {B d l inner sv} (h : LinesBelow B d) (hm : Chunk.mk l (.scope (.mk inner sv)) ∈ d) :
    LinesBelow B inner := fun k lv hl => h (k + 1) lv (levelAt_scope hm hl)

/-- All line numbers in the arguments are less than `B`. -/
def ArgsBelow (B : Nat) (args : List (Str × Scope)) : Prop := ∀ p inner sv, (p, Scope.mk inner sv) ∈ args → LinesBelow B inner

theorem LinesBelow.args {B d l label args} (h : LinesBelow B d) (hm : Chunk.mk l (.command (.mk label args)) ∈ d) :
    ArgsBelow B args := fun _ _ _ ha k lv hl => h (k + 1) lv (levelAt_arg hm ha hl)

end LatexAst.Ast1

namespace LatexAst.Ast2
open LatexAst.Ast1 (ArgsBelow)

theorem intoVariant_line {line : Nat} {v : ChunkVariant} {xs} (h : intoVariant line v = .ok xs) :
    ∃ v', Ast1.Chunk.mk line v' ∈ xs := by
  cases v with
  | text s => rw [intoVariant] at h; cases h; exact ⟨_, .head _⟩
  | scope sc =>
    rw [intoVariant] at h
    cases hx : intoScope sc with
    | error f => rw [hx] at h; cases h
    | ok y => rw [hx] at h; cases h; exact ⟨_, .head _⟩
  | command c =>
    rw [intoVariant] at h
    cases hx : intoCommand c with
    | error f => rw [hx] at h; cases h
    | ok y => rw [hx] at h; cases h; exact ⟨_, .head _⟩
  | environment e =>
    obtain ⟨label, args, content, pb, pe⟩ := e
    rw [intoVariant, intoEnvironment] at h
    split at h
    · cases h
    · cases h
    · split at h
      · cases h
      · split at h
        · cases h
        · split at h
          · cases h
          · cases h; exact ⟨_, .head _⟩

variable (A : Arith)

theorem newlines_le (s : Str) : newlines s ≤ s.length := List.length_filter_le _ _

mutual
theorem intoVariantA_eq : ∀ (v : ChunkVariant) (line : Nat) (r : List Ast1.Chunk), intoVariant line v = .ok r →
    Ast1.LinesBelow u32Size r → v.display.length + 1 < u32Size → intoVariantA A line v = .ok r
  | .text s, line, r, h, hl, hd => by rw [intoVariant] at h; rw [intoVariantA, ← h]
  | .scope sc, line, r, h, hl, hd => by
    rw [intoVariant] at h
    cases hx : intoScope sc with
    | error f => rw [hx] at h; cases h
    | ok y =>
      rw [hx] at h
      cases h
      rw [intoVariantA, intoScopeA_eq sc y hx (fun inner sv he => by subst he; exact hl.scope (.head _)) (by simpa [ChunkVariant.display] using hd)]
  | .command c, line, r, h, hl, hd => by
    rw [intoVariant] at h
    cases hx : intoCommand c with
    | error f => rw [hx] at h; cases h
    | ok y =>
      rw [hx] at h
      cases h
      rw [intoVariantA, intoCommandA_eq c y hx (fun label args he => by subst he; exact hl.args (.head _)) (by simpa [ChunkVariant.display] using hd)]
  | .environment e, line, r, h, hl, hd => by
    rw [intoVariant] at h
    rw [intoVariantA]
    exact intoEnvironmentA_eq e line r h hl (by simpa [ChunkVariant.display] using hd)
theorem intoCommandA_eq : ∀ (c : Command) (r : Ast1.Command), intoCommand c = .ok r →
    (∀ label args, r = .mk label args → ArgsBelow u32Size args) → c.display.length + 1 < u32Size → intoCommandA A c = .ok r
  | .mk label args, r, h, hl, hd => by
    rw [intoCommand] at h
    cases hx : intoArgs args with
    | error f => rw [hx] at h; cases h
    | ok y =>
      rw [hx] at h
      cases h
      simp only [Command.display, List.length_cons, List.length_append] at hd
      rw [intoCommandA, intoArgsA_eq args y hx (hl _ _ rfl) (by omega)]
theorem intoScopeA_eq : ∀ (sc : Scope) (r : Ast1.Scope), intoScope sc = .ok r →
    (∀ inner sv, r = .mk inner sv → Ast1.LinesBelow u32Size inner) → sc.display.length + 1 < u32Size → intoScopeA A sc = .ok r
  | .mk chunks sv, r, h, hl, hd => by
    rw [intoScope] at h
    cases hx : intoChunks 0 chunks with
    | error f => rw [hx] at h; cases h
    | ok y =>
      rw [hx] at h
      cases h
      simp only [Scope.display, List.length_cons, List.length_append] at hd
      rw [intoScopeA, intoChunksA_eq chunks none 0 y hx (hl _ _ rfl) (by omega) (.inl ⟨rfl, rfl⟩)]
theorem intoEnvironmentA_eq : ∀ (e : Environment) (line : Nat) (r : List Ast1.Chunk), intoEnvironment line e = .ok r →
    Ast1.LinesBelow u32Size r → e.display.length + 1 < u32Size → intoEnvironmentA A line e = .ok r
  | .mk label args content pb pe, line, r, h, hl, hd => by
    rw [intoEnvironment] at h
    simp only [Environment.display, List.length_append, List.length_cons] at hd
    rw [intoEnvironmentA]
    rw [Ast1.fromStrA_eq A (s := label) (by omega)]
    cases hf : Ast1.fromStr label with
    | error f => rw [hf] at h; cases f <;> cases h
    | ok lc =>
      rw [hf] at h
      simp only at h
      cases ha : intoArgs args with
      | error f => rw [ha] at h; cases h
      | ok args' =>
        rw [ha] at h
        simp only at h
        split at h
        · cases h
        next hz =>
          cases hc : intoChunks (line - 1) content with
          | error f => rw [hc] at h; cases h
          | ok content' =>
            rw [hc] at h
            simp only at h
            cases h
            have hend := hl 0 _ .top _ _ (List.mem_append_right _ (List.mem_append_right _ (.head _)))
            have hline := hl 0 _ .top _ _ (List.mem_append_left _ (.head _))
            rw [asU32_small (by omega), A.add_exact _ _ hend]
            simp only
            have hargs := hl.args (List.mem_append_left _ (.head _))
            rw [intoArgsA_eq args args' ha (fun p inner sv hm => hargs p inner sv (.tail _ hm)) (by omega)]
            simp only
            have hcont : intoChunksA A (some line) content = .ok content' := by
              cases hcc : content with
              | nil => rw [hcc] at hc; rw [intoChunks] at hc; cases hc; rfl
              | cons x xs =>
                rw [← hcc]
                refine intoChunksA_eq content (some line) (line - 1) content' hc hl.right.left (by omega)
                  (.inr ⟨line, rfl, rfl, ?_, hline⟩)
                rcases Nat.eq_zero_or_pos line with h0 | h0
                · exact absurd ⟨by rw [hcc]; rfl, h0⟩ hz
                · exact h0
            rw [hcont]
theorem intoChunksA_eq : ∀ (cs : List Chunk) (base : Option Nat) (k : Nat) (r : List Ast1.Chunk), intoChunks k cs = .ok r →
    Ast1.LinesBelow u32Size r → (displayChunks cs).length + 1 < u32Size →
    (base = none ∧ k = 0 ∨ ∃ line, base = some line ∧ k = line - 1 ∧ 1 ≤ line ∧ line < u32Size) →
    intoChunksA A base cs = .ok r
  | [], base, k, r, h, hl, hd, hb => by rw [intoChunks] at h; rw [intoChunksA, ← h]
  | .mk l v :: cs, base, k, r, h, hl, hd, hb => by
    rw [intoChunks] at h
    simp only [displayChunks, Chunk.display, List.length_append] at hd
    cases hx : intoVariant (l + k) v with
    | error f => rw [hx] at h; cases h
    | ok xs =>
      rw [hx] at h
      simp only at h
      cases hy : intoChunks k cs with
      | error f => rw [hy] at h; cases h
      | ok ys =>
        rw [hy] at h
        cases h
        obtain ⟨v', hm⟩ := intoVariant_line hx
        have hlk := hl 0 _ .top _ _ (List.mem_append_left _ hm)
        have h1 := intoVariantA_eq v (l + k) xs hx hl.left (by omega)
        have h2 := intoChunksA_eq cs base k ys hy hl.right (by omega) hb
        rcases hb with ⟨rfl, rfl⟩ | ⟨line, rfl, rfl, hge, hlt⟩
        · simp only [intoChunksA]
          rw [Nat.add_zero] at h1
          rw [h1, h2]
        · simp only [intoChunksA]
          rw [A.sub_exact _ _ hge hlt]
          simp only
          rw [A.add_exact _ _ hlk]
          simp only
          rw [h1, h2]
theorem intoArgsA_eq : ∀ (args : List (Str × Scope)) (r : List (Str × Ast1.Scope)), intoArgs args = .ok r →
    ArgsBelow u32Size r → (displayArgs args).length + 1 < u32Size → intoArgsA A args = .ok r
  | [], r, h, hl, hd => by rw [intoArgs] at h; rw [intoArgsA, ← h]
  | (prec, sc) :: args, r, h, hl, hd => by
    rw [intoArgs] at h
    simp only [displayArgs, List.length_append] at hd
    cases hx : intoScope sc with
    | error f => rw [hx] at h; cases h
    | ok s =>
      rw [hx] at h
      simp only at h
      cases hy : intoArgs args with
      | error f => rw [hy] at h; cases h
      | ok ys =>
        rw [hy] at h
        cases h
        rw [intoArgsA, intoScopeA_eq sc s hx (fun inner sv he => by subst he; exact hl _ _ _ (.head _)) (by omega)]
        simp only
        rw [intoArgsA_eq args ys hy (fun p inner sv hm => hl p inner sv (.tail _ hm)) (by omega)]
end

theorem toAst1LoopA_eq (cs : List Chunk) (r : List Ast1.Chunk) (h : intoChunks 0 cs = .ok r) (hl : Ast1.LinesBelow u32Size r)
    (hd : (displayChunks cs).length + 1 < u32Size) (out : Ast1.Document) : toAst1LoopA A cs out = toAst1Loop cs out := by
  induction cs generalizing r out with
  | nil => rfl
  | cons c cs ih =>
    obtain ⟨l, v⟩ := c
    rw [intoChunks] at h
    simp only [displayChunks, Chunk.display, List.length_append] at hd
    cases hx : intoVariant (l + 0) v with
    | error f => rw [hx] at h; cases h
    | ok xs =>
      rw [hx] at h
      simp only at h
      cases hy : intoChunks 0 cs with
      | error f => rw [hy] at h; cases h
      | ok ys =>
        rw [hy] at h
        cases h
        rw [toAst1LoopA, toAst1Loop, intoVariantA_eq A v l xs hx hl.left (by omega)]
        rw [Nat.add_zero] at hx
        rw [hx]
        exact ih ys hy hl.right (by omega) _

end LatexAst.Ast2
