import Verif.Model.Problems

/-! # C68: empirical distributions and their data -/

namespace Skwdro

/-- what reading the inputs of a labelled distribution shows: the contents now, or the error -/
def Distribution.readX (d : Distribution) (h : Heap) : Except PyErr (Option (Tensor ℝ)) := d.getX.map (·.map h.cells)
/-- the same for its labels -/
def Distribution.readY (d : Distribution) (h : Heap) : Except PyErr (Option (Tensor ℝ)) := d.getY.map (·.map h.cells)
/-- the same for the samples of an unlabelled one -/
def Distribution.readSamples (d : Distribution) (h : Heap) : Except PyErr (Option (Tensor ℝ)) := d.getSamples.map (·.map h.cells)

/-- cells `P` are allocated and not held by the caller -/
structure Private (P : ℕ → Prop) (c : Caller) : Prop where
  alloc : ∀ r, P r → r < c.heap.next
  held : ∀ r ∈ c.refs, r < c.heap.next ∧ ¬P r

theorem step_private {P : ℕ → Prop} {c : Caller} (hP : Private P c) (op : CallerOp) :
    Private P (c.step op) ∧ ∀ r, P r → (c.step op).heap.cells r = c.heap.cells r := by
  have hne : ∀ r, P r → r ≠ c.heap.next := fun r hr => (hP.alloc r hr).ne
  have hne' : ∀ r, P r → r ≠ c.heap.next + 1 := fun r hr => by have := hP.alloc r hr; omega
  cases op with
  | create t =>
    refine ⟨⟨fun r hr => ?_, fun r hr => ?_⟩, fun r hr => by simp [Caller.step, Heap.alloc, hne r hr]⟩
    · have := hP.alloc r hr
      simp only [Caller.step, Heap.alloc]
      omega
    · simp only [Caller.step, Heap.alloc, List.mem_cons] at hr ⊢
      rcases hr with rfl | hr
      · exact ⟨by omega, fun h => hne _ h rfl⟩
      · exact ⟨by have := (hP.held r hr).1; omega, (hP.held r hr).2⟩
  | write k t =>
    simp only [Caller.step]
    cases hk : c.refs[k]? with
    | none => exact ⟨hP, fun _ _ => rfl⟩
    | some r =>
      have hr := (hP.held r (List.mem_of_getElem? hk)).2
      refine ⟨⟨hP.alloc, hP.held⟩, fun q hq => ?_⟩
      have : q ≠ r := fun e => hr (e ▸ hq)
      simp [Heap.write, this]
  | buildPlain k =>
    simp only [Caller.step]
    cases hk : c.refs[k]? with
    | none => exact ⟨hP, fun _ _ => rfl⟩
    | some r => exact ⟨hP, fun _ _ => rfl⟩
  | buildLabelled k l =>
    simp only [Caller.step]
    cases hk : c.refs[k]? with
    | none => exact ⟨hP, fun _ _ => rfl⟩
    | some r =>
      cases hl : c.refs[l]? with
      | none => exact ⟨hP, fun _ _ => rfl⟩
      | some s =>
        refine ⟨⟨fun q hq => ?_, fun q hq => ⟨?_, (hP.held q hq).2⟩⟩, fun q hq => by
          simp [withLabels, Heap.alloc, hne q hq, hne' q hq]⟩
        · have := hP.alloc q hq
          simp only [withLabels, Heap.alloc]
          omega
        · have := (hP.held q hq).1
          simp only [withLabels, Heap.alloc]
          omega

theorem run_private {P : ℕ → Prop} (ops : List CallerOp) : ∀ {c : Caller}, Private P c →
    ∀ r, P r → (c.run ops).heap.cells r = c.heap.cells r := by
  induction ops with
  | nil => intro c _ r _; rfl
  | cons op ops ih =>
    intro c hP r hr
    have h := step_private hP op
    exact (ih h.1 r hr).trans (h.2 r hr)

/-- **C68** (labelled half) Whatever the caller does afterwards with the arrays they hold (in particular overwriting those the distribution
was built from), in any order and number, a labelled distribution still reads as the data it was built from. -/
theorem C68_labelled_partial (m : ℤ) (name : PyStr) (c : Caller) (hc : ∀ r ∈ c.refs, r < c.heap.next) {x y : ℕ} (hy : y ∈ c.refs)
    (ops : List CallerOp) :
    let b := withLabels m x y name c.heap
    let after := ({ c with heap := b.2 } : Caller).run ops
    b.1.readX after.heap = .ok (some (c.heap.cells x)) ∧ b.1.readY after.heap = .ok (some (c.heap.cells y)) := by
  intro b after
  have hP : Private (fun r => r = c.heap.next ∨ r = c.heap.next + 1) ({ c with heap := b.2 } : Caller) := by
    refine ⟨fun r hr => ?_, fun r hr => ⟨?_, ?_⟩⟩
    · simp only [b, withLabels, Heap.alloc]; omega
    · have := hc r hr
      simp only [b, withLabels, Heap.alloc]; omega
    · have := hc r hr; omega
  have h1 := run_private ops hP _ (Or.inl rfl)
  have h2 := run_private ops hP _ (Or.inr rfl)
  have hyn : y ≠ c.heap.next := (hc y hy).ne
  constructor
  · show Except.ok (some (after.heap.cells c.heap.next)) = _
    rw [h1]
    simp [b, withLabels, Heap.alloc]
  · show Except.ok (some (after.heap.cells (c.heap.next + 1))) = _
    rw [h2]
    simp [b, withLabels, Heap.alloc, hyn]

/-- **C68** is false for unlabelled distributions: the caller's array is kept by reference, so every in-place change of it shows. -/
theorem C68_unlabelled_false (m : ℤ) (name : PyStr) (c : Caller) {k r : ℕ} (hk : c.refs[k]? = some r) (t : Tensor ℝ) (ht : t ≠ c.heap.cells r) :
    let b := withoutLabels m r name c.heap
    let after := ({ c with heap := b.2 } : Caller).run [.write k t]
    b.1.readSamples b.2 = .ok (some (c.heap.cells r)) ∧ b.1.readSamples after.heap = .ok (some t) ∧
      b.1.readSamples after.heap ≠ b.1.readSamples b.2 := by
  intro b after
  have e : b.1.readSamples after.heap = .ok (some t) := by
    show Except.ok (some (after.heap.cells r)) = _
    simp only [after, b, Caller.run, withoutLabels, List.foldl, Caller.step, hk, Heap.write, if_true]
  refine ⟨rfl, e, ?_⟩
  rw [e]
  intro h
  exact ht (Option.some.inj (Except.ok.inj h))

/-- **C68** (accessors) The label accessors fail on every unlabelled distribution and the plain one on every labelled distribution, also after
any successful assignment. -/
theorem C68_accessors_partial (m : ℤ) (x y : ℕ) (name : PyStr) (h : Heap) :
    (∀ v d, ((withoutLabels m x name h).1.setSamples v = .ok d ∨ (withoutLabels m x name h).1.setX v = .ok d ∨
        (withoutLabels m x name h).1.setY v = .ok d ∨ d = (withoutLabels m x name h).1) →
      d.getX = .error .attributeError ∧ d.getY = .error .attributeError) ∧
    (∀ v d, ((withLabels m x y name h).1.setSamples v = .ok d ∨ (withLabels m x y name h).1.setX v = .ok d ∨
        (withLabels m x y name h).1.setY v = .ok d ∨ d = (withLabels m x y name h).1) →
      d.getSamples = .error .attributeError) := by
  constructor
  · rintro (r | _) d (h | h | h | h) <;> cases h <;> exact ⟨rfl, rfl⟩
  · rintro (r | _) d (h | h | h | h) <;> cases h <;> rfl

/-- **C68** (assignment) Assigning anything but an array fails with TypeError; assigning an array makes exactly that accessor return it. -/
theorem C68_setters_partial (d : Distribution) :
    (d.setSamples .other = .error .typeError ∧ d.setX .other = .error .typeError ∧ d.setY .other = .error .typeError) ∧
    (∀ r, ∃ d', d.setX (.array r) = .ok d' ∧ d'.getSamples = d.getSamples ∧ d'.getY = d.getY ∧ (d.with_labels = true → d'.getX = .ok (some r))) ∧
    (∀ r, ∃ d', d.setY (.array r) = .ok d' ∧ d'.getSamples = d.getSamples ∧ d'.getX = d.getX ∧ (d.with_labels = true → d'.getY = .ok (some r))) ∧
    ∀ r, ∃ d', d.setSamples (.array r) = .ok d' ∧ d'.getX = d.getX ∧ d'.getY = d.getY ∧ (d.with_labels = false → d'.getSamples = .ok (some r)) := by
  refine ⟨⟨rfl, rfl, rfl⟩, fun r => ⟨_, rfl, rfl, rfl, fun h => ?_⟩, fun r => ⟨_, rfl, rfl, rfl, fun h => ?_⟩,
    fun r => ⟨_, rfl, rfl, rfl, fun h => ?_⟩⟩ <;> simp [Distribution.getX, Distribution.getY, Distribution.getSamples, h]

/-- a caller with two arrays, who overwrites both after building -/
example : let c : Caller := ⟨[0, 1], ⟨2, fun _ => ⟨[1], fun _ => 7⟩⟩⟩
    (∀ r ∈ c.refs, r < c.heap.next) ∧ (0 ∈ c.refs) ∧ (1 ∈ c.refs) ∧
    (c.run [.write 0 ⟨[1], fun _ => 8⟩]).heap.cells 0 ≠ c.heap.cells 0 := by
  refine ⟨by simp, by simp, by simp, fun h => ?_⟩
  have := congrFun (congrArg Tensor.get h) [0]
  norm_num [Caller.run, Caller.step, Heap.write] at this

end Skwdro
