import Verif.Lzf.Run
/-!
# C116: compression of runs; C61 for them
-/
namespace Verif.Lzf

/-- C116: a run of `n` equal bytes, 20 or more, compresses to 3 bytes for every 264 of them and at most 9
more, whatever the uninitialised table of the compressor holds. -/
theorem C116_runs (over : UInt8) (htab : HTab) (b : UInt8) (n : Nat) (h : 20 ≤ n) (hn : n < 2 ^ 32) :
    ∃ z, goCompress over htab (List.replicate n b) = .ok z ∧ z.length ≤ 3 * (n / 264) + 9 := by
  have hb : refBytes (n - 2) ≤ 3 * (n / 264) + 3 := by unfold refBytes; omega
  obtain ⟨k, m, e, k1, k2⟩ := compress_run (some over) htab b n n (by omega) hn (by omega)
  refine ⟨m.bytes k, ?_, ?_⟩
  · have hne : List.replicate n b ≠ [] := by simp; omega
    simp only [goCompress, if_neg hne, List.length_replicate, Nat.mod_eq_of_lt hn]
    rw [List.take_of_length_le (by simp), e]
    obtain ⟨j, rfl⟩ : ∃ j, k = j + 1 := ⟨k - 1, by omega⟩
    rfl
  · simp only [Mem.bytes, List.length_map, List.length_range]
    omega

/-- C61 for runs: `DeCompress` gives back every run of 20 bytes or more. -/
theorem C61_runs_partial (over : UInt8) (htab : HTab) (b : UInt8) (n : Nat) (h : 20 ≤ n) (hn : n < 2 ^ 32) :
    ∃ z, goCompress over htab (List.replicate n b) = .ok z ∧ z.length < n ∧ goDecompress z n = .ok (List.replicate n b) := by
  obtain ⟨z, e, hz⟩ := C116_runs over htab b n h hn
  refine ⟨z, e, by omega, ?_⟩
  have := C61_compressed_partial over htab (List.replicate n b) (by simpa using hn) z e (by
    intro hc
    have := congrArg List.length hc
    simp at this
    omega)
  simpa using this

/-- Three hundred zeroes take 12 bytes, which is the bound. -/
example : 3 * (300 / 264) + 9 = 12 ∧ (match goCompress 0 (fun _ => 0) (List.replicate 300 0) with
    | .ok z => z.length
    | _ => 0) = 12 := by
  constructor
  · rfl
  · decide +kernel

end Verif.Lzf
