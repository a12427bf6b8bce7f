import Verif.Model.RingBCD
import Verif.Model.RimProd
/-!
# The model on the repository's own unit tests: functions on lists

`test_part.py`, `test_part_index.py`, `test_part_pair.py`, `test_comps.py`, `test_piery.py`, `test_rim_hook.py`,
`test_type.py`, `test_lc.py`. Checks of the model, not proofs of properties.
-/

namespace Verif.Tests

example : partClip [] = [] := by decide +kernel

example : partClip [1, 2, 3, 4, 5] = [1, 2, 3, 4, 5] := by decide +kernel

example : partClip [3, 4, 5, 0, 0] = [3, 4, 5] := by decide +kernel

example : partClip [1, 0, 0, 0, 0] = [1] := by decide +kernel

example : partClip [0, 0, 0, 0, 0] = [] := by decide +kernel

example : partClip [5] = [5] := by decide +kernel

example : partClip [0] = [] := by decide +kernel

example : itrKstrict [] 1 = [] := by decide +kernel

example : itrKstrict [0, 0, 0] 1 = [] := by decide +kernel

example : itrKstrict [3, 2, 1] 2 = [3, 2, 0] := by decide +kernel

example : itrKstrict [3, 2, 1] 1 = [3, 2, 0] := by decide +kernel

example : itrKstrict [3, 5, 2] 1 = [3, 5, 1] := by decide +kernel

example : itrKstrict [3, 2, 1] 0 = [3, 2, 0] := by decide +kernel

example : partConj [] = [] := by decide +kernel

example : partConj [3] = [1, 1, 1] := by decide +kernel

example : partConj [5, 2] = [2, 2, 1, 1, 1] := by decide +kernel

example : partConj [2, 2, 2] = [3, 3] := by decide +kernel

example : partConj [-1, -2, -3] = [] := by decide +kernel

example : partConj [4,2,1,0] = [3,2,1,1] := by decide +kernel

example : partItrBetween [2,1] [3,1] [3,2] = some [1,1] := by decide +kernel

example : partItrBetween [2,1] [2,2] [3,2] = some [2,0] := by decide +kernel

example : partItrBetween [2,1] [3,3] [3,2] = some [2,0] := by decide +kernel

example : partItrBetween [4,3,1] [2,2,2] [4,3,2] = some [4,3,0] := by decide +kernel

example : partItrBetween [2,1,1] [3,2,1] [4,3,2] = some [2,0,0] := by decide +kernel

example : partItrBetween [9,9] [2,1] [3,2] = some [9,2] := by decide +kernel

example : partItrBetween [4] [3] [4] = some [3] := by decide +kernel

example : partItrBetween [2,2] [2,2] [3,2] = none := by decide +kernel

example : miamiSwapInner [3,2,1] 4 = [3,2,1] := by decide +kernel

example : miamiSwapInner [5,4,3,2,1] 3 = [5,4,3,2,1] := by decide +kernel

example : miamiSwapInner [5,4,3,2,1] 2 = [5,4,3,2,1,0] := by decide +kernel

example : miamiSwapInner [3,2,1,0] 3 = [3,2,1,0] := by decide +kernel

example : miamiSwapInner [3,2,1,0,0,0,0] 2 = [3,2,1,0,0,0] := by decide +kernel

example : miamiSwapInner [4,3,2,1] 3 = [4,3,2,1,0] := by decide +kernel

example : typeSwap [] 2 = [] := by decide +kernel

example : typeSwap [3,2,1] 4 = [3,2,1] := by decide +kernel

example : typeSwap [3,2,1] 2 = [3,2,1,0] := by decide +kernel

example : typeSwap [3,2,1,0] 2 = [3,2,1] := by decide +kernel

example : typeSwap [3,2,1,0] 4 = [3,2,1] := by decide +kernel

example : partStar [] 3 = [] := by decide +kernel

example : partStar [2,1,0] 3 = [] := by decide +kernel

example : partStar [3,2,1,0] 3 = Poly.sym (.S [2,1,0]) := by decide +kernel

example : partStar [4,3,2,1,0] 4 = Poly.sym (.S [3,2,1,0]) := by decide +kernel

example : partTilde [2, 1, 0, 0, 0] 3 2 = [] := by decide +kernel

example : partTilde [3, 2, 1] 3 3 = Poly.sym (.S [2,1]) := by decide +kernel

example : partTilde [3, 2, 1] 3 7 = [] := by decide +kernel

example : partTilde [4, 3, 2] 3 7 = [] := by decide +kernel

example : part2indexA [3,2,1] 2 5 = [0,2,4] := by decide +kernel

example : part2indexA [6,5,4] 3 7 = [-2,0,2,7] := by decide +kernel

example : part2indexA [4,3,2] 1 6 = [-2,0,2,5,6] := by decide +kernel

example : part2indexA [1, 1, 1] 0 3 = [0,1,2] := by decide +kernel

example : part2indexA [0, 0, 0] 2 4 = [3,4] := by decide +kernel

example : part2indexB [3,2,1] 2 5 = [5,8,10] := by decide +kernel

example : part2indexB [6,5,4] 3 7 = [5,6,7,15] := by decide +kernel

example : part2indexB [4,3,2] 1 6 = [4,5,6,12,13] := by decide +kernel

example : part2indexB [1, 1, 1] 0 3 = [3,3,3] := by decide +kernel

example : part2indexB [0, 0, 0] 2 4 = [8,9] := by decide +kernel

example : part2indexC [3,2,1] 2 5 = [5,7,9] := by decide +kernel

example : part2indexC [6,5,4] 3 7 = [5,6,7,14] := by decide +kernel

example : part2indexC [4,3,2] 1 6 = [4,5,6,11,12] := by decide +kernel

example : part2indexC [1, 1, 1] 0 3 = [3,3,4] := by decide +kernel

example : part2indexC [0, 0, 0] 2 4 = [7,8] := by decide +kernel

example : part2indexD [2, 1, 0, 0, 0] 0 1 = [0,1] := by decide +kernel

example : part2indexD [2, 1, 0, 0, 0] 0 2 = [1,2,4] := by decide +kernel

example : part2indexD [2, 1, 0, 0, 0] 1 2 = [2,3] := by decide +kernel

example : part2indexD [2, 1, 0, 0, 0] 2 3 = [4,7] := by decide +kernel

example : part2indexD [2, 1, 0, 0, 0] 3 4 = [7,9] := by decide +kernel

example : index2partA [1,2,3] 2 5 = .ok [2,2,2] := by decide +kernel

example : index2partA [2,1,0] 1 4 = .ok [0,2,4] := by decide +kernel

example : index2partA [3, 2, 1] 0 3 = .ok [-2,0,2] := by decide +kernel

example : index2partA [5, 4, 3] 3 6 = .ok [-1,1,3] := by decide +kernel

example : index2partA [2, 1, 0] 2 4 = .ok [1,3] := by decide +kernel

example : index2partC [3,2,1] 2 5 = .ok [5,6,7] := by decide +kernel

example : index2partC [2,1,0] 1 4 = .ok [4,5,6] := by decide +kernel

example : index2partC [3, 2, 1] 0 3 = .ok [1,2,3] := by decide +kernel

example : index2partC [3,4,5] 3 6 = .ok [7,6,5] := by decide +kernel

example : index2partC [9, 4, 0] 2 4 = .ok [-2,4] := by decide +kernel

example : index2partB [1, 2, 3, 4] 2 5 = .ok [7,6,5] := by decide +kernel

example : index2partB [1,2,3,70] 1 5 = .ok [6,5,4,-59] := by decide +kernel

example : index2partB [10, 11, 12, 13] 4 5 = .ok [1] := by decide +kernel

example : index2partB [1, 2, 3, 4, 5] 3 5 = .ok [8,7] := by decide +kernel

example : index2partD [1, 2, 3, 4] 2 5 = .ok [7,6,5,4] := by decide +kernel

example : index2partD [1, 2, 3, 70] 2 5 = .ok [7,6,5,-58] := by decide +kernel

example : index2partD [4, 4, 6, 7] 1 2 = .ok [1,2,0] := by decide +kernel

example : dualizeIndex [3,2,1] 4 true = [4,3,2] := by decide +kernel

example : dualizeIndex [3,2,1] 3 true = [3,2,1] := by decide +kernel

example : dualizeIndex [3,2,1] 5 false = [5,4,3] := by decide +kernel

example : dualizeIndex [] 5 true = [] := by decide +kernel

example : part2pair [3, 1] 0 = ([], [3,1]) := by decide +kernel

example : part2pair [3, 1] 1 = ([2], [2]) := by decide +kernel

example : part2pair [3, 1] 2 = ([2,1], [1]) := by decide +kernel

example : part2pair [3, 1] 3 = ([2,1,1], []) := by decide +kernel

example : part2pair [3, 1] 4 = ([2,1,1,0], []) := by decide +kernel

example : part2pair [3, 1] 5 = ([2,1,1,0,0], []) := by decide +kernel

example : part2pair [] 3 = ([0,0,0], []) := by decide +kernel

example : part2pair [0,0,0] 2 = ([0,0], [0]) := by decide +kernel

example : pair2part ([], [3,1]) = .ok [3,1] := by decide +kernel

example : pair2part ([2], [3,1]) = .ok [4,2] := by decide +kernel

example : pair2part ([3], [3,1]) = .ok [4,2,1] := by decide +kernel

example : pair2part ([4], [3,1]) = .ok [4,2,1,1] := by decide +kernel

example : pair2part ([5], [3,1]) = .ok [4,2,1,1,1] := by decide +kernel

example : pair2part ([5], [3,1,0]) = .ok [4,2,1,1,1,0] := by decide +kernel

example : pair2part ([0,0,0], []) = .ok [] := by decide +kernel

example : pair2part ([0,0,0], [2]) = .error .indexError := by decide +kernel

example : pair2part ([1], [3,1]) = .error .indexError := by decide +kernel

example : calcComps [6,5,4] [8,7,6] [4,3,2] [12,6,5] 3 3 0 = [-1, -1, -1, -1, -1, 0, -1, -1, -1, 1, 1, 1] := by decide +kernel

example : countComps [] [] false 0 0 = 0 := by decide +kernel

example : countComps [3,2,1] [4,3,2] false 3 0 = 1 := by decide +kernel

example : countComps [3,2,1] [4,3,2] true 3 2 = 0 := by decide +kernel

example : countComps [3,2,1] [4,3,2] false 3 2 = 1 := by decide +kernel

example : pieriFillA [2,1,0,0,0] [2,1,0,0,0] [5,2,1,0,0] 0 1 = some [3,1,0,0,0] := by decide +kernel

example : pieriFillA [2,1,0,0,0] [2,1,0,0,0] [2,2,1,0,0] 0 1 = some [2,2,0,0,0] := by decide +kernel

example : pieriFillA [2,1,0,0,0] [2,1,0,0,0] [2,2,1,0,0] 5 1 = none := by decide +kernel

example : pieriFillA [2,1,0,0,0] [2,1,0,0,0] [5,2,1,0,0] 2 1 = some [2,1,1,0,0] := by decide +kernel

example : pieriFillA [] [2,1,0,0,0] [5,2,1,0,0] 2 1 = some [] := by decide +kernel

example : pieriFillA [2,1] [2,1] [3,2] 0 1 = some [3,1] := by decide +kernel

example : pieriItrA [3,1,0,0,0] [2,1,0,0,0] [5,2,1,0,0,0] = some [2,2,0,0,0] := by decide +kernel

example : pieriItrA [3,1,0,0,0] [2,1,0,0,0] [9,2,1,0,0,0] = some [2,2,0,0,0] := by decide +kernel

example : pieriItrA [2,2,0,0,0] [2,1,0,0,0] [2,2,1,0,0,0] = some [2,1,1,0,0] := by decide +kernel

example : pieriItrA [2,1,0,0,0] [2,1,0,0,0] [5,2,1,0,0,0] = none := by decide +kernel

example : pieriItrA [] [2,1,0,0,0] [5,2,1,0,0,0] = none := by decide +kernel

example : pieriSet 1 [3,2,1] 1 3 2 = .ok [[4,2,1],[3,2,1,1]] := by decide +kernel

example : pieriSet 1 [3,2,1] 0 4 2 = .ok [[4,2,1]] := by decide +kernel

example : pieriSet 1 [3,2,1] 4 6 2 = .ok [[4,2,1],[3,3,1],[3,2,2],[3,2,1,1]] := by decide +kernel

example : pieriSet 3 [2,1] 1 3 0 = .ok [[4,2]] := by decide +kernel

example : pieriSet 3 [2,1] 1 4 0 = .ok [[5,1],[4,2],[4,1,1],[3,2,1]] := by decide +kernel

example : ((removeRimHooks 20 [7,3] 7 3 4).map (fun r => r.map Prod.fst)) = some (.ok (some [2,1])) := by decide +kernel

example : ((removeRimHooks 20 [7,2, 1] 7 3 4).map (fun r => r.map Prod.fst)) = some (.ok (some [1,1,1])) := by decide +kernel

example : ((removeRimHooks 20 [6,4] 7 3 4).map (fun r => r.map Prod.fst)) = some (.ok (some [3])) := by decide +kernel

example : ((removeRimHooks 20 [6,3,1] 7 3 4).map (fun r => r.map Prod.fst)) = some (.ok none) := by decide +kernel

example : ((removeRimHooks 20 [6,2,2] 7 3 4).map (fun r => r.map Prod.fst)) = some (.ok (some [1,1,1])) := by decide +kernel

example : ((removeRimHooks 20 [5,4,1] 7 3 4).map (fun r => r.map Prod.fst)) = some (.ok (some [3])) := by decide +kernel

example : ((removeRimHooks 20 [5,3,2] 7 3 4).map (fun r => r.map Prod.fst)) = some (.ok (some [2,1])) := by decide +kernel

example : ((removeRimHooks 20 [5,5] 5 2 3).map (fun r => r.map Prod.fst)) = some (.ok (some [])) := by decide +kernel

example : mkGr 2 5 = .ok ⟨.A, 3, 5⟩ := by decide +kernel

example : (Space.mk .A 3 5).degreeQ = 5 := by decide +kernel

example : (Space.mk .A 3 5).generators = [[1], [2], [3]] := by decide +kernel

example : (Space.mk .A 3 5).pointClass = [3,3] := by decide +kernel

example : mkOG 2 7 = .ok ⟨.B, 1, 3⟩ := by decide +kernel

example : (Space.mk .B 1 3).degreeQ = 4 := by decide +kernel

example : (Space.mk .B 1 3).generators = [[1], [2], [3], [4]] := by decide +kernel

example : (Space.mk .B 1 3).pointClass = [4,3] := by decide +kernel

example : mkOG 2 5 = .ok ⟨.B, 0, 2⟩ := by decide +kernel

example : (Space.mk .B 0 2).degreeQ = 4 := by decide +kernel

example : (Space.mk .B 0 2).generators = [[1], [2]] := by decide +kernel

example : (Space.mk .B 0 2).pointClass = [2,1] := by decide +kernel

example : mkIG 2 6 = .ok ⟨.C, 1, 3⟩ := by decide +kernel

example : (Space.mk .C 1 3).degreeQ = 5 := by decide +kernel

example : (Space.mk .C 1 3).generators = [[1], [2], [3], [4]] := by decide +kernel

example : (Space.mk .C 1 3).pointClass = [4,3] := by decide +kernel

example : mkOG 2 4 = .ok ⟨.D, 0, 1⟩ := by decide +kernel

example : (Space.mk .D 0 1).degreeQ = 2 := by decide +kernel

example : (Space.mk .D 0 1).generators = [[1]] := by decide +kernel

example : (Space.mk .D 0 1).pointClass = [1] := by decide +kernel

example : mkOG 2 6 = .ok ⟨.D, 1, 2⟩ := by decide +kernel

example : (Space.mk .D 1 2).degreeQ = 3 := by decide +kernel

example : (Space.mk .D 1 2).generators = [[1], [1,0], [2], [3]] := by decide +kernel

example : (Space.mk .D 1 2).pointClass = [3,2] := by decide +kernel

example : mkOG (-1) 5 = .error .valueError := by decide +kernel

example : mkOG 2 (-3) = .error .valueError := by decide +kernel

example : mkIG 2 5 = .error .valueError := by decide +kernel

example : (Space.mk .D 1 2).spec2num [1] = .ok 1 := by decide +kernel

example : (Space.mk .A 3 5).spec2num [1, 0] = .error .valueError := by decide +kernel

example : (Space.mk .D 1 2).spec2num [1, 0] = .ok (-1) := by decide +kernel

end Verif.Tests
