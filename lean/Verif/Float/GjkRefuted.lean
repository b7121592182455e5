import Verif.Float.GjkModel
import Verif.Float.Simplex

/-! # Property C130: wrong answers of the GJK overlap test in floating point -/

namespace Geomc.Flt

/-- **C130, refuted.** A point strictly inside a triangle is reported to be apart from it, in `float` and in `double`. -/
theorem C130_miss_refuted :
    ((overlap (nearest 24) (tri ![3479518, -2101690] ![2517701, -1520736] ![-1977553, 1194476]) ⟨fun _ => ![987974, -596754], 1⟩).map (·.hit) = some false ∧
      ∃ a b c : ℚ, 0 < a ∧ 0 < b ∧ 0 < c ∧ a + b + c = 1 ∧ a * 3479518 + b * 2517701 + c * -1977553 = 987974 ∧
        a * -2101690 + b * -1520736 + c * 1194476 = -596754) ∧
    ((overlap (nearest 53) (tri ![-1589652070543247, -1111009661898230] ![1189502781458152, 831344863158137] ![2168984114721626, 1515905494424322])
      ⟨fun _ => ![551679400593285, 385569368094432], 1⟩).map (·.hit) = some false ∧
      ∃ a b c : ℚ, 0 < a ∧ 0 < b ∧ 0 < c ∧ a + b + c = 1 ∧
        a * -1589652070543247 + b * 1189502781458152 + c * 2168984114721626 = 551679400593285 ∧
        a * -1111009661898230 + b * 831344863158137 + c * 1515905494424322 = 385569368094432) := by
  refine ⟨⟨by decide +kernel, 42144 / 79243, 2231 / 158486, 71967 / 158486, by norm_num⟩, ⟨by decide +kernel,
    2749781412011225 / 6481170849153857, 149671306307738 / 6481170849153857, 3581718130834894 / 6481170849153857, by norm_num⟩⟩

/-- **C130, refuted.** A point outside a triangle, beyond a line with the triangle on the other side, is reported to overlap it, in `float` and in `double`. -/
theorem C130_hit_refuted :
    ((overlap (nearest 24) (tri ![-306580, 178531] ![-1759126, 1024391] ![2602170, -1515321]) ⟨fun _ => ![776740, -452319], 1⟩).map (·.hit) = some true ∧
      ∃ n : Fin 2 → ℚ, ∀ v ∈ [![-306580, 178531], ![-1759126, 1024391], ![2602170, -1515321]], n ⬝ᵥ v < n ⬝ᵥ ![776740, -452319]) ∧
    ((overlap (nearest 53) (tri ![-511769089266049, 403448379412901] ![1825711566856046, -1439282653784000] ![-1345675290373836, 1060850540809181])
      ⟨fun _ => ![93416486856037, -73644014503818], 1⟩).map (·.hit) = some true ∧
      ∃ n : Fin 2 → ℚ, ∀ v ∈ [![-511769089266049, 403448379412901], ![1825711566856046, -1439282653784000], ![-1345675290373836, 1060850540809181]],
        n ⬝ᵥ v < n ⬝ᵥ ![93416486856037, -73644014503818]) :=
  ⟨⟨by decide +kernel, ![-2539712, -4361296], by decide +kernel⟩,
    ⟨by decide +kernel, ![-1842731033196901, -2337480656122095], by decide +kernel⟩⟩

/-- **C130, refuted.** The limit of the iterations is reached ("never reached in 2D or 3D", says the source), the axis is left as it was, and a point outside
a triangle is reported to overlap it, in `float` and in `double`. -/
theorem C130_limit_refuted :
    ((overlap (nearest 24) (tri ![-2331118, 2245230] ![3755601, -3617229] ![-3361187, 3237347]) ⟨fun _ => ![-217891, 209863], 1⟩).map
      (fun r => (r.hit, r.axis, r.iterations)) = some (true, ![1, 0], 11) ∧
      ∃ n : Fin 2 → ℚ, ∀ v ∈ [![-2331118, 2245230], ![3755601, -3617229], ![-3361187, 3237347]], n ⬝ᵥ v < n ⬝ᵥ ![-217891, 209863]) ∧
    ((overlap (nearest 53) (tri ![-2153324913780682, 1788299692577741] ![-69504617774810, 57722402134471] ![1587443214669339, -1318344572437776])
      ⟨fun _ => ![1357054061529232, -1127010301842111], 1⟩).map (fun r => (r.hit, r.axis, r.iterations)) = some (true, ![1, 0], 11) ∧
      ∃ n : Fin 2 → ℚ, ∀ v ∈ [![-2153324913780682, 1788299692577741], ![-69504617774810, 57722402134471], ![1587443214669339, -1318344572437776]],
        n ⬝ᵥ v < n ⬝ᵥ ![1357054061529232, -1127010301842111]) :=
  ⟨⟨by decide +kernel, ![-5862459, -6086719], by decide +kernel⟩,
    ⟨by decide +kernel, ![1730577290443270, 2083820296005872], by decide +kernel⟩⟩

end Geomc.Flt
