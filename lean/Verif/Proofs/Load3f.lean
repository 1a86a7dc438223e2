import Verif.Spec.Calm
import Verif.Proofs.Load3e

/-!
# When loading does not panic
-/

namespace LatexAst.Ast2
open Spec

/-- The line of a chunk before `cs`, compared with the texts after it. -/
def Ruled (l : Nat) (v : ChunkVariant) (cs : List Chunk) : Prop :=
  ((∃ t, v = .text t) → 1 ≤ l) ∧
  ((∀ t, v ≠ .text t) → ∀ mid l' t post, cs = mid ++ .mk l' (.text t) :: post → ¬ Blank t →
    l' + v.late = l + (displayChunks (.mk l v :: mid)).count '\n')

mutual
def ChunkVariant.Lined : ChunkVariant → Prop
  | .text _ => True
  | .scope s => s.Lined
  | .command c => c.Lined
  | .environment e => e.Lined
def Command.Lined : Command → Prop
  | .mk _ args => LinedArgs args
def Scope.Lined : Scope → Prop
  | .mk inner _ => LinedSeq inner
def Environment.Lined : Environment → Prop
  | .mk _ args content _ _ => LinedArgs args ∧ LinedSeq content
def LinedArgs : List (Str × Scope) → Prop
  | [] => True
  | (_, s) :: r => s.Lined ∧ LinedArgs r
def LinedSeq : List Chunk → Prop
  | [] => True
  | .mk l v :: cs => v.Lined ∧ LinedSeq cs ∧ Ruled l v cs
end

theorem linedArgs_iff (args : List (Str × Scope)) : LinedArgs args ↔ ∀ x ∈ args, LinedSeq x.2.chunks := by
  induction args with
  | nil => simp [LinedArgs]
  | cons x r ih =>
    obtain ⟨p, ⟨inner, v⟩⟩ := x
    simp [LinedArgs, ih, Scope.Lined, Scope.chunks]

theorem lined_suffix {a b : List Chunk} (h : LinedSeq (a ++ b)) : LinedSeq b := by
  induction a with
  | nil => exact h
  | cons c a ih => obtain ⟨l, v⟩ := c; exact ih h.2.1

theorem lined_prefix {a b : List Chunk} (h : LinedSeq (a ++ b)) : LinedSeq a := by
  induction a with
  | nil => simp [LinedSeq]
  | cons c a ih =>
    obtain ⟨l, v⟩ := c
    refine ⟨h.1, ih h.2.1, h.2.2.1, fun hv mid l' t post he hb => h.2.2.2 hv mid l' t (post ++ b) (by rw [he]; simp) hb⟩

theorem lined_ruled {a cs : List Chunk} {l v} (h : LinedSeq (a ++ .mk l v :: cs)) : Ruled l v cs := (lined_suffix h).2.2

theorem lined_text {cs : List Chunk} {l t} (h : LinedSeq cs) (hm : .mk l (.text t) ∈ cs) : 1 ≤ l := by
  obtain ⟨a, b, rfl⟩ := List.append_of_mem hm
  exact (lined_ruled h).1 ⟨t, rfl⟩

theorem displayChunks_countFrom (n : Nat) (cs : List Chunk) : displayChunks (cs.map (Ast3.countFrom n)) = displayChunks cs := by
  induction cs with
  | nil => rfl
  | cons c cs ih => obtain ⟨l, v⟩ := c; simp [displayChunks, Chunk.display, Ast3.countFrom, ih]

theorem content_split {kept : List Chunk} {n m t l' t' post} : ∀ {mid}, (∀ c ∈ kept, Ast3.NotText c) →
    (kept ++ Ast3.textIf2 n t).map (Ast3.countFrom m) = mid ++ .mk l' (.text t') :: post → mid = kept.map (Ast3.countFrom m) ∧ l' = n - (m - 1) ∧ t' = t := by
  induction kept with
  | nil =>
    intro mid _ he
    unfold Ast3.textIf2 at he
    split at he
    · simp at he
    · cases mid with
      | nil => simp [Ast3.countFrom] at he; simp [he.1.1, he.1.2]
      | cons c mid => simp at he
  | cons k kept ih =>
    intro mid hk he
    cases mid with
    | nil =>
      exfalso
      obtain ⟨l, v⟩ := k
      simp [Ast3.countFrom] at he
      exact hk _ (.head _) t' (by simp [Chunk.variant, he.1.2])
    | cons c mid =>
      simp only [List.cons_append, List.map_cons, List.cons.injEq] at he
      obtain ⟨h1, h2⟩ := ih (fun c hc => hk c (.tail _ hc)) he.2
      exact ⟨by rw [h1, ← he.1]; rfl, h2⟩

theorem not_blank_dollar {x : Str} (h : '$' ∈ x) : ¬ Blank x := fun hb => absurd (hb '$' h) (by decide)

theorem lined_content {n x t} {rest : List Chunk} (hx : '$' ∈ x) (hn : 1 ≤ n) : ∀ {kept : List Chunk}, LinedSeq (kept ++ .mk n (.text x) :: rest) →
    (∀ c ∈ kept, Ast3.NotText c) → (∀ c ∈ kept, n ≤ c.lineNo + 1) → LinedSeq ((kept ++ Ast3.textIf2 n t).map (Ast3.countFrom n)) := by
  intro kept
  induction kept with
  | nil =>
    intro _ _ _
    unfold Ast3.textIf2
    split
    · simp [LinedSeq]
    · refine ⟨trivial, trivial, fun _ => ?_, fun h => absurd rfl (h t)⟩
      show 1 ≤ n - (n - 1)
      omega
  | cons c kept ih =>
    intro h hk hc
    obtain ⟨l, v⟩ := c
    have hv : ∀ t, v ≠ .text t := hk _ (.head _)
    refine ⟨h.1, ih h.2.1 (fun c hc => hk c (.tail _ hc)) (fun c hm => hc c (.tail _ hm)), fun ⟨t, ht⟩ => absurd ht (hv t), ?_⟩
    intro _ mid l' t' post he hb
    obtain ⟨rfl, rfl, rfl⟩ := content_split (fun c hc => hk c (.tail _ hc)) he
    have h1 := h.2.2.2 hv kept n x rest rfl (not_blank_dollar hx)
    have h2 := hc _ (.head _)
    simp only [Chunk.lineNo] at h2
    have h3 : (displayChunks (.mk (l - (n - 1)) v :: kept.map (Ast3.countFrom n))) = displayChunks (.mk l v :: kept) := by
      simp [displayChunks, Chunk.display, displayChunks_countFrom]
    rw [h3]
    omega

theorem short_iff {n x} {kept rest : List Chunk} (hx : '$' ∈ x) (h : LinedSeq (kept ++ .mk n (.text x) :: rest)) (hk : ∀ c ∈ kept, Ast3.NotText c) :
    (∀ c ∈ kept, n ≤ c.lineNo + 1) ↔ ShortFrom kept := by
  have key : ∀ pre l v post, kept = pre ++ .mk l v :: post → n + v.late = l + (displayChunks (.mk l v :: post)).count '\n' := by
    intro pre l v post he
    subst he
    rw [List.append_assoc] at h
    exact (lined_ruled h).2 (hk (.mk l v) (by simp)) post n x rest rfl (not_blank_dollar hx)
  constructor
  · intro h1 pre c post he
    obtain ⟨l, v⟩ := c
    have h2 := key pre l v post he
    have h3 := h1 (.mk l v) (by rw [he]; simp)
    simp only [Chunk.lineNo, Chunk.variant] at h3 ⊢
    omega
  · intro h1 c hc
    obtain ⟨l, v⟩ := c
    obtain ⟨pre, post, he⟩ := List.append_of_mem hc
    have h2 := key pre l v post he
    have h3 := h1 pre _ post he
    simp only [Chunk.lineNo, Chunk.variant] at h3 ⊢
    omega

theorem retexted_split {R : Str → Str → Prop} : ∀ {a pre post : List Chunk} {l v}, Retexted R a (pre ++ .mk l v :: post) →
    ∃ pre' l' v' post', a = pre' ++ .mk l' v' :: post' ∧ RetextedV R v' v ∧ Retexted R post' post
  | [], [], _, _, _, h => by simp [Retexted] at h
  | [], .mk _ _ :: _, _, _, _, h => by simp [Retexted] at h
  | .mk l' v' :: a, [], post, l, v, h => by
    simp only [List.nil_append, Retexted] at h
    exact ⟨[], l', v', a, rfl, h.1, h.2⟩
  | .mk l' v' :: a, .mk _ _ :: pre, post, l, v, h => by
    simp only [List.cons_append, Retexted] at h
    obtain ⟨p, l1, v1, q, rfl, h1, h2⟩ := retexted_split h.2
    exact ⟨.mk l' v' :: p, l1, v1, q, rfl, h1, h2⟩

theorem sameV_late {v v' : ChunkVariant} (h : RetextedV (fun t t' => t' = t) v v') : v'.late = v.late := by
  match v, v', h with
  | .text _, .text _, _ => rfl
  | .scope (.mk ..), .scope (.mk ..), _ => rfl
  | .command (.mk label args), .command (.mk label' args'), h =>
    simp only [RetextedV] at h
    obtain ⟨rfl, _⟩ := h
    rfl
  | .environment (.mk ..), .environment (.mk ..), h =>
    simp only [RetextedV] at h
    obtain ⟨rfl, h2, _, rfl, _⟩ := h
    simp only [ChunkVariant.late, sameArgs_display h2]

theorem short_same {a b : List Chunk} (h : Retexted (fun t t' => t' = t) a b) (hs : ShortFrom a) : ShortFrom b := by
  intro pre c post he
  obtain ⟨l, v⟩ := c
  subst he
  obtain ⟨pre', l', v', post', rfl, h1, h2⟩ := retexted_split h
  have := hs pre' _ post' rfl
  simp only [Chunk.variant, displayChunks, Chunk.display] at this ⊢
  rw [sameV_late h1, same_display h2, sameV_display h1]
  exact this

theorem nodesOnly_content {ms : List Chunk} {l t} (h : ∀ m ∈ ms, Ast3.NotText m) : nodesOnly (ms ++ Ast3.textIf2 l t) = ms := by
  induction ms with
  | nil => unfold Ast3.textIf2; split <;> rfl
  | cons m ms ih =>
    obtain ⟨l', v⟩ := m
    have h1 := ih fun m hm => h m (.tail _ hm)
    have h2 := h _ (.head _)
    cases v with
    | text t => exact absurd rfl (h2 t)
    | _ => simp [nodesOnly, h1]

end LatexAst.Ast2
