import Verif.Json.ParseProps
import Verif.Json.PrintProps

/-!
# The sizes of a document and of its value

How high the value of a document is, and how many iterations the printer needs for it, in terms of the text.
-/

namespace Verif.Json

theorem body_pieces (ps : List (List Tok)) (tr : Bool) (c : Tok) : (ps.map List.length).sum + ps.length ≤ (body ps tr c).length := by
  induction ps with
  | nil => simp [body_nil]
  | cons p ps ih =>
    rw [body_cons, List.length_append, List.map_cons, List.sum_cons, List.length_cons]
    cases ps with
    | nil => cases tr <;> simp [bodyTail]
    | cons q qs =>
      rw [bodyTail_cons, List.length_cons]
      simp only [List.length_cons] at ih ⊢
      omega

theorem heightF_insertKey (k : List Byte) (v : Val) (l : List (List Byte × Val)) :
    heightF (insertKey k v l) ≤ max v.height (heightF l) := by
  induction l with
  | nil => simp [insertKey, heightF]
  | cons e l ih =>
    obtain ⟨k', v'⟩ := e
    rw [insertKey]
    split
    · simp only [heightF]; omega
    · simp only [heightF]; omega

theorem nstepsF_insertKey (k : List Byte) (v : Val) (l : List (List Byte × Val)) :
    nstepsF (insertKey k v l) ≤ nsteps v + 1 + nstepsF l := by
  induction l with
  | nil => simp [insertKey, nstepsF]
  | cons e l ih =>
    obtain ⟨k', v'⟩ := e
    rw [insertKey]
    split
    · simp only [nstepsF]; omega
    · simp only [nstepsF]; omega

/-- a value is at most one level higher than its document is deep -/
theorem height_le_depth (x : Syn) : x.val.height ≤ x.depth + 1 := by
  induction x using Syn.ind with
  | hs s => simp [Syn.val, Val.height, Syn.depth]
  | hl a => simp [Syn.val, Val.height, Syn.depth]
  | ha xs tr ih =>
    rw [Syn.val, Val.height, Syn.depth]
    suffices h : heightL (valL xs) ≤ depthL xs + 1 by omega
    induction xs with
    | nil => simp [valL, heightL]
    | cons x xs ihx =>
      have h1 := ih x (by simp)
      have h2 := ihx fun y hy => ih y (List.mem_cons_of_mem _ hy)
      simp only [valL, heightL, depthL]
      omega
  | ho xs tr ih =>
    rw [Syn.val, Val.height, Syn.depth]
    suffices h : ∀ acc, heightF (valF xs acc) ≤ max (heightF acc) (depthF xs + 1) by
      have := h []
      simp only [heightF] at this
      omega
    induction xs with
    | nil => intro acc; rw [valF]; omega
    | cons e xs ihx =>
      intro acc
      obtain ⟨k, x⟩ := e
      have h1 := ih (k, x) (by simp)
      have h2 := ihx (fun y hy => ih y (List.mem_cons_of_mem _ hy)) (insertKey k x.val acc)
      have h3 := heightF_insertKey k x.val acc
      simp only [valF, depthF] at h1 h2 ⊢
      omega

/-- the printer needs at most one iteration for each token -/
theorem nsteps_le_toks (x : Syn) : nsteps x.val ≤ x.toks.length := by
  induction x using Syn.ind with
  | hs s => simp [Syn.val, nsteps, Syn.toks]
  | hl a => simp [Syn.val, nsteps, Syn.toks]
  | ha xs tr ih =>
    rw [Syn.val, nsteps, Syn.toks, List.length_cons]
    have hb := body_pieces (toksL xs) tr .rb
    suffices h : nstepsL (valL xs) ≤ ((toksL xs).map List.length).sum + (toksL xs).length by omega
    clear hb
    induction xs with
    | nil => simp [valL, nstepsL]
    | cons x xs ihx =>
      have h1 := ih x (by simp)
      have h2 := ihx fun y hy => ih y (List.mem_cons_of_mem _ hy)
      simp only [valL, nstepsL, toksL, List.map_cons, List.sum_cons, List.length_cons]
      omega
  | ho xs tr ih =>
    rw [Syn.val, nsteps, Syn.toks, List.length_cons]
    have hb := body_pieces (toksF xs) tr .rc
    suffices h : ∀ acc, nstepsF (valF xs acc) ≤ nstepsF acc + ((toksF xs).map List.length).sum + (toksF xs).length by
      have := h []
      simp only [nstepsF] at this
      omega
    clear hb
    induction xs with
    | nil => intro acc; rw [valF]; omega
    | cons e xs ihx =>
      intro acc
      obtain ⟨k, x⟩ := e
      have h1 := ih (k, x) (by simp)
      have h2 := ihx (fun y hy => ih y (List.mem_cons_of_mem _ hy)) (insertKey k x.val acc)
      have h3 := nstepsF_insertKey k x.val acc
      simp only [valF, toksF, List.map_cons, List.sum_cons, List.length_cons] at h1 h2 ⊢
      omega

theorem depth_lt_toks (x : Syn) : x.depth < x.toks.length := by
  induction x using Syn.ind with
  | hs s => simp [Syn.depth, Syn.toks]
  | hl a => simp [Syn.depth, Syn.toks]
  | ha xs tr ih =>
    rw [Syn.depth, Syn.toks, List.length_cons]
    have hb := body_pieces (toksL xs) tr .rb
    have hp : 0 < (body (toksL xs) tr .rb).length := by rw [body, List.length_append]; simp
    suffices h : depthL xs ≤ ((toksL xs).map List.length).sum + (toksL xs).length - 1 by omega
    clear hb hp
    induction xs with
    | nil => simp [depthL]
    | cons x xs ihx =>
      have h1 := ih x (by simp)
      have h2 := ihx fun y hy => ih y (List.mem_cons_of_mem _ hy)
      simp only [depthL, toksL, List.map_cons, List.sum_cons, List.length_cons]
      omega
  | ho xs tr ih =>
    rw [Syn.depth, Syn.toks, List.length_cons]
    have hb := body_pieces (toksF xs) tr .rc
    have hp : 0 < (body (toksF xs) tr .rc).length := by rw [body, List.length_append]; simp
    suffices h : depthF xs ≤ ((toksF xs).map List.length).sum + (toksF xs).length - 1 by omega
    clear hb hp
    induction xs with
    | nil => simp [depthF]
    | cons e xs ihx =>
      obtain ⟨k, x⟩ := e
      have h1 := ih (k, x) (by simp)
      have h2 := ihx fun y hy => ih y (List.mem_cons_of_mem _ hy)
      simp only [depthF, toksF, List.map_cons, List.sum_cons, List.length_cons] at h1 h2 ⊢
      omega

end Verif.Json
