import Verif.Spec.Tree

/-! Recursive "all nodes" predicates, equivalent to quantifying over `Within`. -/

namespace LatexAst

namespace Ast1
mutual
def Chunk.All (P : ChunkVariant → Prop) : Chunk → Prop
  | .mk _ v => v.All P
def ChunkVariant.All (P : ChunkVariant → Prop) : ChunkVariant → Prop
  | .text s => P (.text s)
  | .command c => P (.command c) ∧ c.All P
  | .scope s => P (.scope s) ∧ s.All P
def Command.All (P : ChunkVariant → Prop) : Command → Prop
  | .mk _ args => AllArgs P args
def Scope.All (P : ChunkVariant → Prop) : Scope → Prop
  | .mk cs _ => AllChunks P cs
def AllChunks (P : ChunkVariant → Prop) : List Chunk → Prop
  | [] => True
  | c :: cs => c.All P ∧ AllChunks P cs
def AllArgs (P : ChunkVariant → Prop) : List (Str × Scope) → Prop
  | [] => True
  | (_, s) :: r => s.All P ∧ AllArgs P r
end

theorem allChunks_iff_forall {P} (cs : List Chunk) : AllChunks P cs ↔ ∀ c ∈ cs, c.All P := by
  induction cs with
  | nil => simp [AllChunks]
  | cons c cs ih => simp [AllChunks, ih]
theorem allArgs_iff_forall {P} (a : List (Str × Scope)) : AllArgs P a ↔ ∀ x ∈ a, x.2.All P := by
  induction a with
  | nil => simp [AllArgs]
  | cons c cs ih => obtain ⟨p, s⟩ := c; simp [AllArgs, ih]

theorem Within.mono {cs cs' v} (h : Within cs v) (hs : ∀ c ∈ cs, c ∈ cs') : Within cs' v := by
  cases h with
  | here h => exact .here (hs _ h)
  | scope h h' => exact .scope (hs _ h) h'
  | arg h h' h'' => exact .arg (hs _ h) h' h''

theorem all_of_within {P} {cs v} (h : Within cs v) : AllChunks P cs → P v := by
  induction h with
  | @here cs l v h =>
    intro ha
    have := (allChunks_iff_forall cs).1 ha _ h
    simp only [Chunk.All] at this
    cases v <;> simp_all [ChunkVariant.All]
  | scope h _ ih =>
    intro ha
    have := (allChunks_iff_forall _).1 ha _ h
    simp only [Chunk.All, ChunkVariant.All, Scope.All] at this
    exact ih this.2
  | arg h h' _ ih =>
    intro ha
    have := (allChunks_iff_forall _).1 ha _ h
    simp only [Chunk.All, ChunkVariant.All, Command.All] at this
    have := (allArgs_iff_forall _).1 this.2 _ h'
    exact ih this

mutual
theorem Chunk.all_of {P} : ∀ c : Chunk, (∀ v, Within [c] v → P v) → c.All P
  | .mk l (.text s), h => by
    simp only [Chunk.All, ChunkVariant.All]; exact h _ (.here (List.mem_singleton.2 rfl))
  | .mk l (.command (.mk lb args)), h => by
    simp only [Chunk.All, ChunkVariant.All, Command.All]
    exact ⟨h _ (.here (List.mem_singleton.2 rfl)), allArgs_of args fun p cs sv hm v hv =>
      h v (.arg (List.mem_singleton.2 rfl) hm hv)⟩
  | .mk l (.scope (.mk cs sv)), h => by
    simp only [Chunk.All, ChunkVariant.All, Scope.All]
    exact ⟨h _ (.here (List.mem_singleton.2 rfl)), allChunks_of cs fun v hv =>
      h v (.scope (List.mem_singleton.2 rfl) hv)⟩
theorem allChunks_of {P} : ∀ cs : List Chunk, (∀ v, Within cs v → P v) → AllChunks P cs
  | [], _ => trivial
  | c :: cs, h => ⟨Chunk.all_of c fun v hv => h v (hv.mono (by simp)),
      allChunks_of cs fun v hv => h v (hv.mono (by simp; intros; simp_all))⟩
theorem allArgs_of {P} : ∀ a : List (Str × Scope),
    (∀ p cs sv, (p, Scope.mk cs sv) ∈ a → ∀ v, Within cs v → P v) → AllArgs P a
  | [], _ => trivial
  | (p, .mk cs sv) :: r, h => by
    simp only [AllArgs, Scope.All]
    exact ⟨allChunks_of cs (h p cs sv (by simp)), allArgs_of r fun p cs sv hm => h p cs sv (by simp [hm])⟩
end

theorem allChunks_iff {P} (cs : List Chunk) : AllChunks P cs ↔ ∀ v, Within cs v → P v :=
  ⟨fun h _ hv => all_of_within hv h, allChunks_of cs⟩

@[simp] theorem allChunks_append {P} (a b : List Chunk) :
    AllChunks P (a ++ b) ↔ AllChunks P a ∧ AllChunks P b := by
  simp only [allChunks_iff_forall, List.mem_append]
  constructor
  · exact fun h => ⟨fun c hc => h c (.inl hc), fun c hc => h c (.inr hc)⟩
  · rintro ⟨h, h'⟩ c (hc | hc)
    · exact h c hc
    · exact h' c hc
end Ast1

namespace Ast2
mutual
def Chunk.All (P : ChunkVariant → Prop) : Chunk → Prop
  | .mk _ v => v.All P
def ChunkVariant.All (P : ChunkVariant → Prop) : ChunkVariant → Prop
  | .text s => P (.text s)
  | .command c => P (.command c) ∧ c.All P
  | .scope s => P (.scope s) ∧ s.All P
  | .environment e => P (.environment e) ∧ e.All P
def Command.All (P : ChunkVariant → Prop) : Command → Prop
  | .mk _ args => AllArgs P args
def Scope.All (P : ChunkVariant → Prop) : Scope → Prop
  | .mk cs _ => AllChunks P cs
def Environment.All (P : ChunkVariant → Prop) : Environment → Prop
  | .mk _ args content _ _ => AllArgs P args ∧ AllChunks P content
def AllChunks (P : ChunkVariant → Prop) : List Chunk → Prop
  | [] => True
  | c :: cs => c.All P ∧ AllChunks P cs
def AllArgs (P : ChunkVariant → Prop) : List (Str × Scope) → Prop
  | [] => True
  | (_, s) :: r => s.All P ∧ AllArgs P r
end

theorem allChunks_iff_forall {P} (cs : List Chunk) : AllChunks P cs ↔ ∀ c ∈ cs, c.All P := by
  induction cs with
  | nil => simp [AllChunks]
  | cons c cs ih => simp [AllChunks, ih]
theorem allArgs_iff_forall {P} (a : List (Str × Scope)) : AllArgs P a ↔ ∀ x ∈ a, x.2.All P := by
  induction a with
  | nil => simp [AllArgs]
  | cons c cs ih => obtain ⟨p, s⟩ := c; simp [AllArgs, ih]

theorem Within.mono {cs cs' v} (h : Within cs v) (hs : ∀ c ∈ cs, c ∈ cs') : Within cs' v := by
  cases h with
  | here h => exact .here (hs _ h)
  | scope h h' => exact .scope (hs _ h) h'
  | arg h h' h'' => exact .arg (hs _ h) h' h''
  | envArg h h' h'' => exact .envArg (hs _ h) h' h''
  | envContent h h' => exact .envContent (hs _ h) h'

theorem all_of_within {P} {cs v} (h : Within cs v) : AllChunks P cs → P v := by
  induction h with
  | @here cs l v h =>
    intro ha
    have := (allChunks_iff_forall cs).1 ha _ h
    simp only [Chunk.All] at this
    cases v <;> simp_all [ChunkVariant.All]
  | scope h _ ih =>
    intro ha
    have := (allChunks_iff_forall _).1 ha _ h
    simp only [Chunk.All, ChunkVariant.All, Scope.All] at this
    exact ih this.2
  | arg h h' _ ih =>
    intro ha
    have := (allChunks_iff_forall _).1 ha _ h
    simp only [Chunk.All, ChunkVariant.All, Command.All] at this
    exact ih ((allArgs_iff_forall _).1 this.2 _ h')
  | envArg h h' _ ih =>
    intro ha
    have := (allChunks_iff_forall _).1 ha _ h
    simp only [Chunk.All, ChunkVariant.All, Environment.All] at this
    exact ih ((allArgs_iff_forall _).1 this.2.1 _ h')
  | envContent h _ ih =>
    intro ha
    have := (allChunks_iff_forall _).1 ha _ h
    simp only [Chunk.All, ChunkVariant.All, Environment.All] at this
    exact ih this.2.2

mutual
theorem Chunk.all_of {P} : ∀ c : Chunk, (∀ v, Within [c] v → P v) → c.All P
  | .mk l (.text s), h => by
    simp only [Chunk.All, ChunkVariant.All]; exact h _ (.here (List.mem_singleton.2 rfl))
  | .mk l (.command (.mk lb args)), h => by
    simp only [Chunk.All, ChunkVariant.All, Command.All]
    exact ⟨h _ (.here (List.mem_singleton.2 rfl)), allArgs_of args fun p cs sv hm v hv =>
      h v (.arg (List.mem_singleton.2 rfl) hm hv)⟩
  | .mk l (.scope (.mk cs sv)), h => by
    simp only [Chunk.All, ChunkVariant.All, Scope.All]
    exact ⟨h _ (.here (List.mem_singleton.2 rfl)), allChunks_of cs fun v hv =>
      h v (.scope (List.mem_singleton.2 rfl) hv)⟩
  | .mk l (.environment (.mk lb args content pb pe)), h => by
    simp only [Chunk.All, ChunkVariant.All, Environment.All]
    exact ⟨h _ (.here (List.mem_singleton.2 rfl)),
      allArgs_of args fun p cs sv hm v hv => h v (.envArg (List.mem_singleton.2 rfl) hm hv),
      allChunks_of content fun v hv => h v (.envContent (List.mem_singleton.2 rfl) hv)⟩
theorem allChunks_of {P} : ∀ cs : List Chunk, (∀ v, Within cs v → P v) → AllChunks P cs
  | [], _ => trivial
  | c :: cs, h => ⟨Chunk.all_of c fun v hv => h v (hv.mono (by simp)),
      allChunks_of cs fun v hv => h v (hv.mono (by simp; intros; simp_all))⟩
theorem allArgs_of {P} : ∀ a : List (Str × Scope),
    (∀ p cs sv, (p, Scope.mk cs sv) ∈ a → ∀ v, Within cs v → P v) → AllArgs P a
  | [], _ => trivial
  | (p, .mk cs sv) :: r, h => by
    simp only [AllArgs, Scope.All]
    exact ⟨allChunks_of cs (h p cs sv (by simp)), allArgs_of r fun p cs sv hm => h p cs sv (by simp [hm])⟩
end

theorem allChunks_iff {P} (cs : List Chunk) : AllChunks P cs ↔ ∀ v, Within cs v → P v :=
  ⟨fun h _ hv => all_of_within hv h, allChunks_of cs⟩

@[simp] theorem allChunks_append {P} (a b : List Chunk) :
    AllChunks P (a ++ b) ↔ AllChunks P a ∧ AllChunks P b := by
  simp only [allChunks_iff_forall, List.mem_append]
  constructor
  · exact fun h => ⟨fun c hc => h c (.inl hc), fun c hc => h c (.inr hc)⟩
  · rintro ⟨h, h'⟩ c (hc | hc)
    · exact h c hc
    · exact h' c hc
end Ast2

namespace Ast3
mutual
def Chunk.All (P : ChunkVariant → Prop) : Chunk → Prop
  | .mk _ v => v.All P
def ChunkVariant.All (P : ChunkVariant → Prop) : ChunkVariant → Prop
  | .text s => P (.text s)
  | .paragraphBreak s => P (.paragraphBreak s)
  | .command c => P (.command c) ∧ c.All P
  | .scope s => P (.scope s) ∧ s.All P
  | .environment e => P (.environment e) ∧ e.All P
  | .mathsBlock m => P (.mathsBlock m) ∧ m.All P
def Command.All (P : ChunkVariant → Prop) : Command → Prop
  | .mk _ args => AllArgs P args
def Scope.All (P : ChunkVariant → Prop) : Scope → Prop
  | .mk cs _ => AllChunks P cs
def Environment.All (P : ChunkVariant → Prop) : Environment → Prop
  | .mk _ args content _ _ => AllArgs P args ∧ AllChunks P content
def MathsBlock.All (P : ChunkVariant → Prop) : MathsBlock → Prop
  | .mk _ _ content => AllChunks P content
def AllChunks (P : ChunkVariant → Prop) : List Chunk → Prop
  | [] => True
  | c :: cs => c.All P ∧ AllChunks P cs
def AllArgs (P : ChunkVariant → Prop) : List (Str × Scope) → Prop
  | [] => True
  | (_, s) :: r => s.All P ∧ AllArgs P r
end

theorem allChunks_iff_forall {P} (cs : List Chunk) : AllChunks P cs ↔ ∀ c ∈ cs, c.All P := by
  induction cs with
  | nil => simp [AllChunks]
  | cons c cs ih => simp [AllChunks, ih]
theorem allArgs_iff_forall {P} (a : List (Str × Scope)) : AllArgs P a ↔ ∀ x ∈ a, x.2.All P := by
  induction a with
  | nil => simp [AllArgs]
  | cons c cs ih => obtain ⟨p, s⟩ := c; simp [AllArgs, ih]

theorem Within.mono {cs cs' v} (h : Within cs v) (hs : ∀ c ∈ cs, c ∈ cs') : Within cs' v := by
  cases h with
  | here h => exact .here (hs _ h)
  | scope h h' => exact .scope (hs _ h) h'
  | arg h h' h'' => exact .arg (hs _ h) h' h''
  | envArg h h' h'' => exact .envArg (hs _ h) h' h''
  | envContent h h' => exact .envContent (hs _ h) h'
  | maths h h' => exact .maths (hs _ h) h'

theorem all_of_within {P} {cs v} (h : Within cs v) : AllChunks P cs → P v := by
  induction h with
  | @here cs l v h =>
    intro ha
    have := (allChunks_iff_forall cs).1 ha _ h
    simp only [Chunk.All] at this
    cases v <;> simp_all [ChunkVariant.All]
  | scope h _ ih =>
    intro ha
    have := (allChunks_iff_forall _).1 ha _ h
    simp only [Chunk.All, ChunkVariant.All, Scope.All] at this
    exact ih this.2
  | arg h h' _ ih =>
    intro ha
    have := (allChunks_iff_forall _).1 ha _ h
    simp only [Chunk.All, ChunkVariant.All, Command.All] at this
    exact ih ((allArgs_iff_forall _).1 this.2 _ h')
  | envArg h h' _ ih =>
    intro ha
    have := (allChunks_iff_forall _).1 ha _ h
    simp only [Chunk.All, ChunkVariant.All, Environment.All] at this
    exact ih ((allArgs_iff_forall _).1 this.2.1 _ h')
  | envContent h _ ih =>
    intro ha
    have := (allChunks_iff_forall _).1 ha _ h
    simp only [Chunk.All, ChunkVariant.All, Environment.All] at this
    exact ih this.2.2
  | maths h _ ih =>
    intro ha
    have := (allChunks_iff_forall _).1 ha _ h
    simp only [Chunk.All, ChunkVariant.All, MathsBlock.All] at this
    exact ih this.2

mutual
theorem Chunk.all_of {P} : ∀ c : Chunk, (∀ v, Within [c] v → P v) → c.All P
  | .mk l (.text s), h => by
    simp only [Chunk.All, ChunkVariant.All]; exact h _ (.here (List.mem_singleton.2 rfl))
  | .mk l (.paragraphBreak s), h => by
    simp only [Chunk.All, ChunkVariant.All]; exact h _ (.here (List.mem_singleton.2 rfl))
  | .mk l (.command (.mk lb args)), h => by
    simp only [Chunk.All, ChunkVariant.All, Command.All]
    exact ⟨h _ (.here (List.mem_singleton.2 rfl)), allArgs_of args fun p cs sv hm v hv =>
      h v (.arg (List.mem_singleton.2 rfl) hm hv)⟩
  | .mk l (.scope (.mk cs sv)), h => by
    simp only [Chunk.All, ChunkVariant.All, Scope.All]
    exact ⟨h _ (.here (List.mem_singleton.2 rfl)), allChunks_of cs fun v hv =>
      h v (.scope (List.mem_singleton.2 rfl) hv)⟩
  | .mk l (.environment (.mk lb args content pb pe)), h => by
    simp only [Chunk.All, ChunkVariant.All, Environment.All]
    exact ⟨h _ (.here (List.mem_singleton.2 rfl)),
      allArgs_of args fun p cs sv hm v hv => h v (.envArg (List.mem_singleton.2 rfl) hm hv),
      allChunks_of content fun v hv => h v (.envContent (List.mem_singleton.2 rfl) hv)⟩
  | .mk l (.mathsBlock (.mk mv mt content)), h => by
    simp only [Chunk.All, ChunkVariant.All, MathsBlock.All]
    exact ⟨h _ (.here (List.mem_singleton.2 rfl)),
      allChunks_of content fun v hv => h v (.maths (List.mem_singleton.2 rfl) hv)⟩
theorem allChunks_of {P} : ∀ cs : List Chunk, (∀ v, Within cs v → P v) → AllChunks P cs
  | [], _ => trivial
  | c :: cs, h => ⟨Chunk.all_of c fun v hv => h v (hv.mono (by simp)),
      allChunks_of cs fun v hv => h v (hv.mono (by simp; intros; simp_all))⟩
theorem allArgs_of {P} : ∀ a : List (Str × Scope),
    (∀ p cs sv, (p, Scope.mk cs sv) ∈ a → ∀ v, Within cs v → P v) → AllArgs P a
  | [], _ => trivial
  | (p, .mk cs sv) :: r, h => by
    simp only [AllArgs, Scope.All]
    exact ⟨allChunks_of cs (h p cs sv (by simp)), allArgs_of r fun p cs sv hm => h p cs sv (by simp [hm])⟩
end

theorem allChunks_iff {P} (cs : List Chunk) : AllChunks P cs ↔ ∀ v, Within cs v → P v :=
  ⟨fun h _ hv => all_of_within hv h, allChunks_of cs⟩

@[simp] theorem allChunks_append {P} (a b : List Chunk) :
    AllChunks P (a ++ b) ↔ AllChunks P a ∧ AllChunks P b := by
  simp only [allChunks_iff_forall, List.mem_append]
  constructor
  · exact fun h => ⟨fun c hc => h c (.inl hc), fun c hc => h c (.inr hc)⟩
  · rintro ⟨h, h'⟩ c (hc | hc)
    · exact h c hc
    · exact h' c hc
end Ast3
end LatexAst
