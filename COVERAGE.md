# Definitions of the model and the code they cite

Generated by `tools/audit.py` from the doc comments in `lean/Verif/Model`.

## Model/Adj.lean

| definition | models |
|---|---|
| `insertUniq` | data.py:2486-2489 |
| `npUnique` | data.py:2486-2489 |
| `flatIds` | data.py:2486-2489 |
| `relabel` | data.py:2486-2489 |
| `sparseSize` | data.py:2646 |
| `toSparse` | data.py:2626-2652 |
| `nodesWith` | data.py:2526-2538 |
| `nodes` | data.py:2526-2538 |
| `roots` | data.py:2540-2549 |
| `leaves` | data.py:2551-2560 |
| `todense` | data.py:2562-2587 |
| `matrixUnweighted` | data.py:2562-2587 |
| `matrixWeighted` | data.py:2562-2587 |
| `cooOfDense` | data.py:2589-2624 |
| `setdiagZero` | data.py:2589-2624 |
| `fromMatrix` | data.py:2589-2624 |

## Model/AdjCache.lean

| definition | models |
|---|---|
| `AdjObj` | data.py:2431-2432, 2486-2503 |
| `AdjObj.readRelab` | data.py:2486-2489 |
| `AdjObj.toSparseWith` | data.py:2626-2652 |
| `AdjObj.toSparse` | data.py:2626-2652 |
| `AdjObj.readSigned` | data.py:2491-2493 |
| `AdjObj.readUnsigned` | data.py:2495-2499 |
| `AdjObj.readCsr` | data.py:2501-2503 |
| `AdjObj.roots` | data.py:2540-2549 |
| `AdjObj.leaves` | data.py:2551-2560 |
| `AdjObj.matrix` | data.py:2562-2587 |
| `AdjObj.descendants` | select.py:254-288 |
| `AdjObj.copy` | data.py:2482-2484 |
| `AdjObj.getitem` | data.py:2477-2480 |
| `AOp` | data.py:2540-2652, select.py:254-288, data.py:2511-2524, data.py:2432 |
| `AOp.run` | data.py:2431-2652 |
| `runAdj` | data.py:2431-2652 |

## Model/ArgClosest.lean

| definition | models |
|---|---|
| `MomObj` | data.py:1540-1548 |
| `Heap` | data.py:1540-1548 |
| `Heap.put` | data.py:1540-1548 |
| `readRapidity` | data.py:1540-1548 |
| `variance` | calculate.py:930, 935 |
| `allFin` | calculate.py:930, 935 |
| `varRecip` | calculate.py:930, 935 |
| `gaussCost` | calculate.py:938-939 |
| `negSum` | calculate.py:940 |
| `rowOf` | calculate.py:932-940 |
| `costIter` | calculate.py:932-940 |
| `costIters` | calculate.py:931-940 |
| `assignmentCost` | calculate.py:915-941 |
| `argClosest` | select.py:1165-1234 |
| `TagArgs` | select.py:1237-1246 |
| `TagParticles` | select.py:1376-1379 |
| `portionNames` | select.py:1352-1360 |
| `portionMask` | select.py:1361 |
| `truthyList` | select.py:1366 |
| `orList` | select.py:1366 |
| `tagFilter` | select.py:1364-1375 |
| `clusteredOf` | select.py:1376-1379 |
| `tagGroup` | select.py:1392-1396 |
| `monteCarloTag` | select.py:1237-1396 |

## Model/ArrayRepr.lean

| definition | models |
|---|---|
| `splitNl` | data.py:282 |
| `joinNl` | data.py:291 |
| `arrayRepr` | data.py:277-292 |

## Model/Basic.lean

| definition | models |
|---|---|
| `PyErr` | data.py:432-443 |
| `Py` | data.py:432-443 |
| `bcast2` | data.py:537-559, 825-847, data.py:263-274 |
| `Dict` | data.py:716-718 |
| `get?` | data.py:772-798 |
| `set` | data.py:800-806 |
| `pop?` | data.py:818-820 |
| `keys` | data.py:769-770 |
| `ofPairs` | select.py:1392-1396 |
| `update` | select.py:894-919 |
| `Key` | data.py:524-527, 1178-1181, 1460-1463, 1886-1889, 1974-1977, 2056-2059, 2477-2480 |
| `trueIdxs` | data.py:524-527, 1178-1181, 1460-1463 |
| `normIdx` | data.py:524-527, 1178-1181, 1460-1463 |
| `normIdxs` | data.py:524-527, 1178-1181, 1460-1463, 1886-1889, 1974-1977, 2056-2059, 2477-2480 |
| `clampBound` | data.py:524-527, 1178-1181, 1460-1463, 1886-1889, 1974-1977, 2056-2059, 2477-2480 |
| `sliceLen` | data.py:524-527, 1178-1181, 1460-1463, 1886-1889, 1974-1977, 2056-2059, 2477-2480 |
| `sliceIdxs` | data.py:524-527, 1178-1181, 1460-1463, 1886-1889, 1974-1977, 2056-2059, 2477-2480 |
| `Key.resolve` | data.py:524-527, 1178-1181, 1460-1463, 1886-1889, 1974-1977, 2056-2059, 2477-2480 |
| `gather` | data.py:524-527, 1178-1181, 1460-1463, 1886-1889, 1974-1977, 2056-2059, 2477-2480 |
| `Key.apply` | data.py:524-527, 1178-1181, 1460-1463, 1886-1889, 1974-1977, 2056-2059, 2477-2480 |
| `setMask` | data.py:529-532, select.py:287, 315 |
| `setMaskVals` | select.py:376-421 |

## Model/Binary.lean

| definition | models |
|---|---|
| `nearestInt` | data.py:1338-1344 |
| `roundTo` | data.py:1338-1344 |
| `spacingExp` | data.py:1338-1344 |
| `roundBits` | data.py:1338-1344, calculate.py:348 |
| `roundMin` | data.py:1338-1344 |
| `binArith` | calculate.py:192-260, data.py:1487-1595 |
| `binArithR` | calculate.py:290-296 |
| `binArithP` | select.py:992-994 |
| `binArithS` | data.py:1597-1621, 1713-1740 |
| `binCount` | calculate.py:348-349 |
| `gradual` | calculate.py:192-260, data.py:1487-1595 |

## Model/Buffer.lean

| definition | models |
|---|---|
| `ArrRef` | data.py:423-443 |
| `readArr` | data.py:1183-1185, 1436-1442 |
| `allocArr` | data.py:517-519, 1191-1193 |
| `contiguous` | data.py:377-400 |
| `wrapArr` | data.py:423-443 |
| `npGet` | data.py:524-527, 1178-1181, 1460-1463 |
| `itemArr` | data.py:524-527, 1460-1463, 2477-2480 |
| `writeCells` | data.py:529-532 |
| `writeArr` | data.py:529-532, 2337 |
| `BState` | data.py:423-443 |
| `BOp` | data.py:423-443, 517-532, 1178-1193, 2477-2484 |
| `BState.push` | data.py:423-443 |
| `BOp.run` | data.py:423-443, 517-532, 1178-1193, 2477-2484 |
| `runBufs` | data.py:423-443, 517-532, 1178-1193, 2477-2484 |

## Model/Cached.lean

| definition | models |
|---|---|
| `CacheObj` | data.py:1487-1584 |
| `Qty` | data.py:1487-1584 |
| `CacheObj.readZt` | data.py:1487-1496 |
| `CacheObj.readMag` | data.py:1498-1500 |
| `etaOf` | data.py:1535-1537 |
| `CacheObj.readEta` | data.py:1527-1538 |
| `CacheObj.readRapidity` | data.py:1540-1548 |
| `maskPhi` | data.py:1559-1571 |
| `CacheObj.readPhi` | data.py:1550-1572 |
| `CacheObj.readTheta` | data.py:1574-1577 |
| `CacheObj.readMass` | data.py:1579-1584 |
| `CacheObj.readMassT` | data.py:1586-1595 |
| `CacheObj.read` | data.py:1487-1584 |
| `COp` | data.py:1438-1463, 1487-1584 |
| `COp.run` | data.py:1438-1463, 1487-1584 |
| `runCache` | data.py:1438-1463, 1487-1584 |
| `CacheObj.copy` | data.py:1478-1480 |
| `CacheObj.getitem` | data.py:1460-1463 |

## Model/Cast.lean

| definition | models |
|---|---|
| `DType` | data.py:492, 1086, 1338, 1830, 1934, 2028, 2431 |
| `Elem` | data.py:432 |
| `Cls.dtype` | data.py:492, 1086, 1338, 1830, 1934, 2028, 2431 |
| `Platform` | data.py:432 |
| `wrapInt` | data.py:432 |
| `truncReal` | data.py:432 |
| `castInt` | data.py:432 |
| `castVal` | data.py:432 |
| `newArray` | data.py:432, data.py:433-443, 1342-1345 |

## Model/Centroid.lean

| definition | models |
|---|---|
| `Fl.mulR` | calculate.py:45-87 |
| `Fl.divR` | calculate.py:45-87 |
| `Fl.addF` | calculate.py:45-87 |
| `flSum` | calculate.py:45-87 |
| `phaseRect` | calculate.py:86 |
| `weightedCentroid` | calculate.py:45-87 |
| `resultantCoords` | calculate.py:90-133 |

## Model/Cluster.lean

| definition | models |
|---|---|
| `timesBool` | calculate.py:873-877 |
| `jaccardLoop` | calculate.py:873-877 |
| `jaccardKernel` | calculate.py:848-880 |
| `jaccardArg` | calculate.py:908-911 |
| `jaccardDistance` | calculate.py:883-912 |
| `clustCoeff` | calculate.py:341-349 |
| `clustCoeffs` | calculate.py:336-350 |
| `Fl.ltR` | calculate.py:386-387 |
| `radiusAdj` | calculate.py:386-387 |
| `clusterCoeffDistbn` | calculate.py:352-390 |
| `TProg` | calculate.py:392-399 |
| `TRun` | calculate.py:392-399 |
| `setNumThreads` | calculate.py:392-399 |
| `TProg.run` | calculate.py:392-399 |
| `deltaRProg` | data.py:1793-1797 |
| `clusterCoeffProg` | calculate.py:386-390 |
| `argClosestProg` | select.py:1225-1231 |

## Model/Clusters.lean

| definition | models |
|---|---|
| `Mask.leafRefs` | select.py:877-891 |
| `Mask.leafRefsKids` | select.py:888-891 |
| `leafRefDict` | select.py:894-919 |
| `Mask.leafAt` | select.py:1146-1156 |
| `Mask.setLeaf` | select.py:1156 |
| `leafCentre` | select.py:1149-1155 |
| `pruneLoop` | select.py:1146-1156 |
| `flatEntries` | select.py:1067-1162 |
| `restrictAll` | select.py:1159-1162 |
| `ClusterGraph` | select.py:1067-1162 |
| `clusterRest` | select.py:1067-1162 |
| `clusters` | select.py:1067-1162 |

## Model/ClustersMem.lean

| definition | models |
|---|---|
| `leafRefsKidsH` | select.py:888-891 |
| `leafRefsH` | select.py:877-891 |
| `leafDictH` | select.py:894-919 |
| `pruneLoopH` | select.py:1146-1156 |
| `clusterEndH` | select.py:1158-1162 |
| `clusterRestH` | select.py:1067-1162 |
| `clustersH` | select.py:1067-1162 |

## Model/Compare.lean

| definition | models |
|---|---|
| `bcastLen` | data.py:267, 274 |
| `stretch` | data.py:267, 274 |
| `npCompare` | data.py:267, 274 |
| `toMask` | data.py:267, 274 |
| `EqOpd` | data.py:237-260 |
| `viewFields` | data.py:259 |
| `recEq` | data.py:263-267 |
| `prepScalar` | data.py:237-260 |
| `unrelatedLen` | data.py:267, 274 |
| `prepFields` | data.py:243-260, base.py:216, data.py:248 |
| `arrayCompare` | data.py:263-267 |
| `arrayEq` | data.py:263-267 |
| `arrayNe` | data.py:269-274 |
| `edgeBuffer` | data.py:2679 |
| `Graph.eqTruth` | data.py:2679 |

## Model/Composite.lean

| definition | models |
|---|---|
| `PSet` | data.py:2211-2259 |
| `Adj` | data.py:2403-2437 |
| `Graph` | data.py:2680-2709 |
| `listTruthy` | data.py:455-457, data.py:1165-1166, 1894-1895, 1982-1983, 2064-2065, data.py:1156-1157, 1891-1892, 1979-1980, 2061-2062 |
| `getCol` | data.py:2174-2177, 2161-2171 |
| `PSet.get` | data.py:2256-2257 |
| `Adj.get` | data.py:2477-2480 |
| `PSet.truthy` | data.py:2180-2181 |
| `Adj.truthy` | data.py:2461-2462 |
| `Graph.truthy` | data.py:2180-2181, 2713-2714 |
| `keepIf` | data.py:2161-2171 |
| `Graph.get` | data.py:2710-2711 |
| `firstPositive` | data.py:2184-2185 |
| `PSet.len` | data.py:2267-2268 |
| `Graph.len` | data.py:2716-2717 |
| `copyCol` | data.py:1882-1884, 1970-1972, 2086-2088, data.py:2306-2308 |
| `PSet.copy` | data.py:2306-2308 |
| `Adj.copy` | data.py:2482-2484 |
| `Graph.copy` | data.py:2734-2736 |
| `attrEqTruth` | data.py:263-267 |
| `maskEqTruth` | data.py:603-621 |
| `pyAnd` | data.py:2210 |
| `PSet.eqTruth` | data.py:2210 |
| `lheStatusMap` | data.py:2335 |
| `rewriteStatus` | data.py:2336-2337 |
| `LheEvent` | base.py:50-76 |
| `fromLhe` | data.py:2311-2338 |
| `LheBuf` | data.py:2311-2338 |
| `fromLheMem` | data.py:2311-2338, data.py:432 |
| `NumpyArgs` | data.py:2341-2390 |
| `psetFromNumpy` | data.py:2341-2390 |
| `graphFromNumpy` | data.py:2771-2837 |
| `EventObj` | base.py:79-136 |
| `fromEvent` | data.py:2739-2769 |
| `GraphSer` | data.py:2885-2889 |
| `Graph.serialize` | data.py:2885-2889 |
| `asarrayTuples` | data.py:432 |

## Model/Convert.lean

| definition | models |
|---|---|
| `Nd` | data.py:432-443 |
| `Structured` | data.py:349-360 |
| `isFlat` | data.py:435 |
| `convertNd` | data.py:432-443 |
| `momentumMap` | data.py:111-118 |
| `edgeMap` | data.py:120 |
| `mapNames` | data.py:349-360 |
| `fieldOf` | data.py:349-360 |
| `reorderRec` | data.py:349-360 |
| `reorder` | data.py:349-360, data.py:363-374 |
| `unstructure` | data.py:431 |
| `convertStructured` | data.py:424-431 |
| `Kind` | data.py:1342-1345 |
| `Kind.cols` | data.py:1342-1345 |
| `construct` | data.py:1342-1345 |
| `constructStructured` | data.py:349-360, 432-443 |
| `Nd.len` | data.py:534, 1156, 1454, 1891, 1979, 2061, 2458 |
| `chunks` | data.py:1438-1442, 1862-1866, 2512-2519 |
| `records` | data.py:1438-1442, 1862-1866, 2512-2519 |
| `rowAt` | data.py:524-527, 1178-1181, 1460-1463, 1886-1889, 1974-1977, 2056-2059 |
| `getInt` | data.py:524-527, 1178-1181, 1460-1463, 1886-1889, 1974-1977, 2056-2059, data.py:2477-2480 |

## Model/DeltaR.lean

| definition | models |
|---|---|
| `hypotFl` | calculate.py:293-296 |
| `deltaRCell` | calculate.py:292-296, 329-333 |
| `Write` | calculate.py:290-296 |
| `Cloud` | data.py:1785-1797 |
| `cloudOf` | data.py:1785-1797 |
| `generalIter` | calculate.py:290-296 |
| `symmetricIter` | calculate.py:327-333 |
| `runWrites` | calculate.py:290-296 |
| `Interleave` | calculate.py:290-296, 326-333, 932-940 |
| `deltaRLoop` | data.py:1742-1797 |

## Model/DeltaRCall.lean

| definition | models |
|---|---|
| `CHeap` | data.py:1742-1797 |
| `CHeap.put` | data.py:1789-1792 |
| `getRapidity` | data.py:1789-1792 |
| `cloudWith` | calculate.py:287-296 |
| `deltaRCall` | data.py:1742-1797 |

## Model/Descend.lean

| definition | models |
|---|---|
| `csrRow` | data.py:2501-2503 |
| `bfsVisit` | select.py:254-288 |
| `bfsLoop` | select.py:254-288 |
| `bfsTree` | select.py:254-288 |
| `vertexDescendants` | select.py:254-288 |
| `edgeDescendants` | select.py:291-316 |
| `hadronVertices` | select.py:319-343 |
| `pivotTuples` | select.py:222-226 |
| `explodeCell` | select.py:220-239 |
| `vtxPdgs` | select.py:220-239 |
| `findVertex` | select.py:168-251 |

## Model/Distance.lean

| definition | models |
|---|---|
| `Fl.mul` | matrix.py:258-259 |
| `ptWeight` | matrix.py:258 |
| `deltaRAffLoop` | matrix.py:192-216 |
| `partonHadronLoop` | matrix.py:257 |
| `partonHadronEntry` | matrix.py:258-259 |
| `weightedDist` | matrix.py:219-259, select.py:457 |
| `Fl.lt` | matrix.py:258-259 |
| `npArgminFrom` | select.py:418 |
| `npArgmin` | select.py:418 |

## Model/EventObj.lean

| definition | models |
|---|---|
| `EObj` | data.py:423-443 |
| `EState` | data.py:423-443, 2249-2254, 2707-2708 |
| `EState.isArr` | data.py:2249-2254 |
| `EState.isSet` | data.py:2707 |
| `EState.records` | data.py:1183-1185, 1436-1442 |
| `EState.attr` | data.py:2249-2254 |
| `EState.addArr` | data.py:423-443 |
| `EState.emptyPart` | data.py:2249-2254, 2708 |
| `EState.copyPart` | data.py:2188-2191 |
| `EState.getPart` | data.py:2174-2177 |
| `buildParts` | data.py:2174-2177, 2188-2191, 2249-2254 |
| `EState.addSet` | data.py:2211-2254 |
| `EState.givenPart` | data.py:2249-2254 |
| `EState.emptySet` | data.py:2249-2254 |
| `EState.setTruthy` | data.py:2180-2181, 2259-2260 |
| `EState.setFrom` | data.py:2174-2177, 2188-2191 |
| `EState.graphFrom` | data.py:2174-2177, 2188-2191, 2710-2711, 2734-2736 |
| `EState.givenSet` | data.py:2707 |
| `EState.givenAdj` | data.py:2708 |
| `EOp` | data.py:423-443, 524-532, 2249-2260, 2306-2308, 2707-2711, 2734-2736, 2836-2882 |
| `EState.made` | data.py:2174-2177, 2188-2191 |
| `EOp.run` | data.py:423-443, 524-532, 2249-2260, 2306-2308, 2707-2711, 2734-2736, 2836-2882 |
| `runEvents` | data.py:423-443, 524-532, 2249-2260, 2306-2308, 2707-2711, 2734-2736, 2836-2882 |

## Model/EventShape.lean

| definition | models |
|---|---|
| `pyDiv` | calculate.py:432-440 |
| `threeNorm` | calculate.py:432-440 |
| `anglesToAxis` | calculate.py:443-467 |
| `ThrustAcc` | calculate.py:505-522 |
| `thrustStep` | calculate.py:505-522 |
| `thrustLoop` | calculate.py:471-527 |
| `thrustWithGrad` | calculate.py:471-527 |
| `SphAcc` | calculate.py:656-695 |
| `sphStep` | calculate.py:656-695 |
| `sphLoop` | calculate.py:630-700 |
| `spherocityWithGrad` | calculate.py:630-700 |
| `cInner` | calculate.py:805-810 |
| `cOuter` | calculate.py:799-811 |
| `cParameter` | calculate.py:799-838 |

## Model/Flags.lean

| definition | models |
|---|---|
| `PyFlag` | data.py:906-936, 1195-1230, 2090-2123, 2589-2624, select.py:635-713, 1001-1064 |
| `PyFlag.isTrue` | data.py:2619, 2622, select.py:1060 |
| `PyFlag.isFalse` | data.py:929, 1226, 2117 |
| `PyFlag.truth` | select.py:690, 699, 703 |
| `PyFlag.ofBool` | data.py:929, 1226, 2117, 2619, 2622 |
| `pdgMaskFlag` | data.py:1195-1230 |
| `inRangeFlag` | data.py:2090-2123 |
| `filterTargetFlag` | select.py:689-706 |
| `applyTargetFlag` | select.py:635-713 |
| `hardDescendantsFlag` | select.py:635-713 |
| `recursiveDropFlag` | data.py:906-936 |
| `fromMatrixFlag` | data.py:2589-2624 |
| `colorSingletsFlag` | select.py:1001-1064 |

## Model/GenKt.lean

| definition | models |
|---|---|
| `KtRule` | select.py:139-149 |
| `KtRule.pair` | select.py:149-150 |
| `Jet.join` | select.py:149-150 |
| `KtRule.Least` | select.py:149-150 |
| `KtRun` | select.py:149-150 |
| `ktInput` | select.py:135-137, 150 |
| `RunsKt` | select.py:149-153 |
| `KtResult` | select.py:58-165 |

## Model/Given.lean

| definition | models |
|---|---|
| `Given` | data.py:651-661, 800-806 |
| `arrayMask` | data.py:422-443, 492 |
| `Given.convert` | data.py:653-660 |
| `Given.convertKids` | data.py:651-661 |
| `groupOfGiven` | data.py:716-722 |
| `Given.assigned` | data.py:804-805 |
| `assignGiven` | data.py:800-806 |
| `assignAll` | data.py:800-806 |

## Model/Guess.lean

| definition | models |
|---|---|
| `angleLaw` | calculate.py:608-611, 781-784 |
| `guessLaw` | calculate.py:608-611, 781-784 |

## Model/Hard.lean

| definition | models |
|---|---|
| `dupNumbers` | select.py:625-626 |
| `pdgsToKeys` | select.py:612-632 |
| `hardGroup` | select.py:686-687, 801-802 |
| `HardGraph` | data.py:2710-2711, 2174-2177 |
| `HardGraph.get` | select.py:689-706 |
| `filterTarget` | select.py:689-706 |
| `applyTarget` | select.py:635-713 |
| `descMasks` | select.py:708-709 |
| `markOne` | select.py:712 |
| `markAll` | select.py:711-712 |
| `hardDescendants` | select.py:635-713 |
| `matRow` | select.py:503 |
| `ancestorRows` | select.py:502-503 |
| `ancestorMatrix` | select.py:479-505 |
| `popcount` | select.py:508-538 |
| `insertByKey` | select.py:508-538 |
| `sortByKey` | select.py:508-538 |
| `clearWhere` | select.py:536-537 |
| `parentStep` | select.py:536-537 |
| `parentMatrix` | select.py:508-538 |
| `compress` | select.py:541-572 |
| `parentDict` | select.py:541-572 |
| `flatHierarchy` | select.py:575-609 |
| `descGet` | select.py:867-873 |
| `leafEntry` | select.py:867-873 |
| `addLatent` | select.py:855-857, 864-866 |
| `buildBranch` | select.py:858-874 |
| `makeTree` | select.py:858-874 |
| `makeTreeTop` | select.py:851-857 |
| `hierRoots` | select.py:813-815 |
| `sliceAll` | select.py:811 |
| `selectNames` | select.py:811, data.py:788-791 |
| `markFinal` | select.py:817-821 |
| `hierarchyTree` | select.py:811-823 |
| `hierarchy` | select.py:716-823 |

## Model/Heap.lean

| definition | models |
|---|---|
| `HObj` | data.py:497, data.py:716-722 |
| `MHeap` | data.py:860-863 |
| `copyKids` | data.py:860-863 |
| `copyObj` | data.py:517-519, data.py:858-864 |
| `dropKidsH` | data.py:933-935 |
| `dropInPlace` | data.py:928-936 |
| `recursiveDropH` | data.py:906-936 |
| `allocMask` | data.py:497, 716-722 |
| `allocKids` | data.py:651-661 |
| `navigate` | data.py:772-798 |
| `HOp` | data.py:529-532, 800-820, 906-934 |
| `HOp.run` | data.py:529-532, 800-820, 906-934 |
| `HState` | data.py:529-532, 800-820, 858-863 |
| `HStep` | data.py:529-532, 800-820, 858-863 |
| `HStep.run` | data.py:529-532, 800-820, 858-863 |
| `runHistory` | data.py:529-532, 800-820, 858-863 |

## Model/HierMem.lean

| definition | models |
|---|---|
| `readMaskArr` | select.py:868-873 |
| `readKids` | select.py:855-857, 864-866 |
| `readMask` | select.py:855-857, 864-866 |
| `readAll` | select.py:811-823 |
| `markOneH` | select.py:821 |
| `markAllH` | select.py:820-821 |
| `markFinalH` | select.py:817-821 |
| `leafH` | select.py:867-873 |
| `latentH` | select.py:855-857, 864-866 |
| `branchH` | select.py:858-874 |
| `allocGroup` | select.py:851 |
| `treeH` | select.py:858-874 |
| `treeTopH` | select.py:851-857 |
| `hierarchyTreeH` | select.py:811-823 |
| `privateDesc` | select.py:805-808 |
| `hierarchyH` | select.py:716-823 |

## Model/InPlace.lean

| definition | models |
|---|---|
| `Arg` | data.py:206-219, 498, 1140 |
| `bcastTo` | data.py:216-220 |
| `writeEach` | data.py:216-220 |
| `ufuncInto` | data.py:214-220 |
| `finishInto` | data.py:222-234 |
| `augment` | data.py:204-234, base.py:137, 216 |
| `freshArr` | data.py:220, 232-234, 547, 559 |
| `binary` | data.py:204-234 |
| `PObj` | data.py:1487-1584 |
| `PState` | data.py:460-494, 1030-1089, 1342-1360 |
| `PState.lookup` | data.py:460-494 |
| `POp` | data.py:166-234, 517-519, 1191-1193, 1478-1480, 1487-1584 |
| `PState.bind` | data.py:222-234 |
| `POp.run` | data.py:166-234, 517-519, 1191-1193, 1478-1480, 1487-1584 |
| `runNames` | data.py:166-234 |
| `PState.shows` | data.py:573-576, 1183-1185, 1435-1440 |
| `PState.attrOf` | data.py:1487-1584 |
| `BitOp` | data.py:537-559, base.py:137 |
| `BitOp.fn` | data.py:547, 559 |
| `MaskOperand` | data.py:537-559 |
| `groupData` | data.py:880-896 |
| `MaskOperand.toArg` | data.py:206-219 |
| `maskCall` | data.py:204-234 |
| `maskBin` | data.py:537-559, base.py:137 |
| `maskAug` | base.py:137, data.py:204-234 |
| `maskRefl` | base.py:137, data.py:204-234 |
| `groupBin` | data.py:825-847 |
| `groupAug` | data.py:694-695, 825-847 |

## Model/IntEvent.lean

| definition | models |
|---|---|
| `Attr` | data.py:2249-2254, data.py:2708 |
| `Attr.kind` | data.py:2249-2254, 2708 |
| `particleAttrs` | data.py:2155-2158, 2249-2254 |
| `NdEvent` | data.py:2249-2254, 2707-2708 |
| `emptyNd` | data.py:445-447 |
| `emptyEvent` | data.py:2249-2254, 2707-2708 |
| `NdEvent.with` | data.py:2174-2177 |
| `getAttrs` | data.py:2174-2177 |
| `NdEvent.getInt` | data.py:2256-2257, 2710-2711 |
| `NdEvent.len` | data.py:2184-2185 |
| `serializeAttrs` | data.py:2392-2399, 2885-2889 |
| `NdEvent.serialize` | data.py:2885-2889 |
| `readRow` | data.py:2278-2293 |
| `NdEvent.print` | data.py:2719-2726 |
| `Step` | data.py:2256-2257, 2710-2711 |
| `SeqIter` | data.py:2256-2257, 2710-2711 |
| `SeqIter.next` | data.py:2256-2257, 2710-2711 |
| `nexts` | data.py:2256-2257, 2710-2711 |

## Model/Iter.lean

| definition | models |
|---|---|
| `iterate` | data.py:1451-1452, 1858-1859, 2455-2456 |
| `serializeArr` | data.py:589, 1304, 1803, 1912, 2000, 2147, 2659 |
| `assignData` | data.py:578-582, 1187-1189, 1442-1444, 1868-1870, 1966-1968, 2082-2084, data.py:450 |
| `assignStructured` | data.py:423-443 |

## Model/Mapping.lean

| definition | models |
|---|---|
| `MArg` | data.py:800-806 |
| `MArg.toMask` | data.py:804-805 |
| `mapSet` | data.py:800-806 |
| `mapContains` | data.py:695, 772-798 |
| `mapGet` | data.py:695, 772-798 |
| `MOut` | data.py:695 |
| `MapOp` | data.py:695, 800-806, 818-820 |
| `mapPopitem` | data.py:695, 769-770, 818-820 |
| `mapClear` | data.py:695 |
| `mapUpdate` | data.py:695, 800-806 |
| `MapOp.run` | data.py:695, 800-806, 818-820 |
| `runMap` | data.py:695 |
| `RVal` | data.py:592-600 |
| `truthOf` | data.py:570-571, 455-457 |
| `RMask.eqKind` | data.py:564-565, 852-853 |
| `RMask.argKind` | data.py:511-512, 822-823 |
| `eqTruthMask` | data.py:564-565, 570-571, 603-621, 852-853 |
| `sameOrEq` | data.py:695 |
| `valuesContain` | data.py:695, 769-770 |
| `itemsContain` | data.py:695, 772-798 |

## Model/Mask.lean

| definition | models |
|---|---|
| `Agg` | data.py:682-685 |
| `Agg.ofLowered` | data.py:724-729 |
| `Mask` | data.py:460, data.py:695 |
| `reduceRows` | data.py:866-879 |
| `Mask.data` | data.py:573-576, data.py:880-896, data.py:866-879 |
| `Mask.dataKids` | data.py:869, 876 |
| `groupOr` | data.py:866-871 |
| `groupAnd` | data.py:873-878 |
| `Operand` | data.py:538-546, 550-558, 826-834, 838-846 |
| `Operand.data` | data.py:538-546, 550-558, 826-834, 838-846 |
| `Mask.band` | data.py:537-547, data.py:825-835 |
| `Mask.bor` | data.py:549-559, data.py:837-847 |
| `Mask.inv` | data.py:561-562, 849-850 |
| `MaskArg` | data.py:511-512, 822-823 |
| `Mask.argKind` | data.py:460, 695 |
| `maskUfunc` | data.py:621, 642, data.py:511-512, data.py:206-212, data.py:822-823 |
| `maskCompare` | data.py:603-621, data.py:624-642, data.py:592-600 |
| `Mask.eqMask` | data.py:564-565, data.py:852-853 |
| `Mask.neMask` | data.py:567-568, 855-856 |
| `Mask.slice` | data.py:524-527, data.py:792-796 |
| `Mask.sliceKids` | data.py:794-796 |
| `groupGet` | data.py:797-798 |
| `groupSelect` | data.py:788-791 |
| `groupSet` | data.py:800-806 |
| `groupDel` | data.py:818-820 |
| `Mask.truthy` | data.py:808-813, data.py:455-457, 570-571 |
| `Ser` | data.py:584-589 |
| `Mask.serialize` | data.py:584-589, data.py:998-1003 |
| `Mask.serializeKids` | data.py:1003 |
| `Ser.convert` | data.py:654-659, data.py:719-722 |
| `Ser.convertKids` | data.py:651-661 |
| `groupOfSer` | data.py:716-722 |
| `keysAgree` | data.py:667-668 |
| `Mask.equalTo` | data.py:664-679, data.py:1005-1026 |
| `Mask.equalKids` | data.py:670-678 |
| `Mask.drop` | data.py:906-936 |
| `Mask.dropKids` | data.py:931-935 |
| `Mask.visitItem` | data.py:990-994 |
| `Mask.visitKids` | data.py:984-994 |
| `flattenRise` | data.py:984-996 |
| `flattenAgg` | data.py:976-982 |
| `Mask.leafIter` | select.py:877-891 |
| `Mask.leafIterKids` | select.py:888-891 |
| `leafMasks` | select.py:894-919, data.py:972-975 |
| `maskGroupAttrs` | data.py:695-1026, data.py:695 |
| `pairs2` | select.py:941-944 |
| `pairChecks` | select.py:941-944 |
| `overlapOf` | select.py:941-944 |
| `anyOverlapDuck` | select.py:922-945 |
| `anyOverlap` | select.py:922-945 |

## Model/MassOverflow.lean

| definition | models |
|---|---|
| `SumTree.evalO` | calculate.py:186 |
| `sumO` | calculate.py:186 |
| `squareO` | calculate.py:186 |
| `minkSquares` | calculate.py:182, 186 |
| `combinedMassO` | calculate.py:182-189 |

## Model/MassWeight.lean

| definition | models |
|---|---|
| `WeightArg` | calculate.py:137, calculate.py:177-178 |
| `WeightArg.stretched` | calculate.py:179 |
| `combinedMassArg` | calculate.py:135-189, calculate.py:175-176 |

## Model/Matrix.lean

| definition | models |
|---|---|
| `Arr2` | matrix.py:81-84, 156-157, 187-188 |
| `AdjMat` | matrix.py:22-88 |
| `fillDiagonal` | matrix.py:81-84, 156-157, 187-188 |
| `Flag` | matrix.py:72-86, 131-158, 187 |
| `Flag.ofBool` | matrix.py:72-86, 131-158, 187 |
| `cutAdj` | matrix.py:22-88 |
| `DTypeArg` | matrix.py:90-159 |
| `putRows` | matrix.py:153 |
| `knnAdj` | matrix.py:90-159 |
| `fcAdj` | matrix.py:161-190 |

## Model/Momentum.lean

| definition | models |
|---|---|
| `Fl` | data.py:1527-1538 |
| `P4` | data.py:1308-1345 |
| `total` | calculate.py:129, 428 |
| `xyPol` | data.py:1482-1485 |
| `ztPol` | data.py:1487-1496 |
| `pt` | data.py:1522-1525 |
| `spatialMag` | data.py:1498-1500 |
| `eta` | data.py:1527-1538 |
| `copysign` | calculate.py:192-222 |
| `copysignInf` | calculate.py:192-222 |
| `rapidityOf` | calculate.py:192-222 |
| `rootDiffTwoSquares` | calculate.py:224-260 |
| `rapidity` | data.py:1540-1548, data.py:98 |
| `phi` | data.py:1550-1572 |
| `theta` | data.py:1574-1577 |
| `mass` | data.py:1579-1584 |
| `massT` | data.py:1586-1595 |
| `shiftRapidity` | data.py:1597-1621 |
| `shiftPhi` | data.py:1713-1740 |
| `ShiftArg` | data.py:1616-1621, 1733-1740 |
| `applyShift` | data.py:1616-1621, 1733-1740 |
| `shiftRapidity` | data.py:1597-1621 |
| `shiftPhi` | data.py:1713-1740 |
| `combinedMass` | calculate.py:135-189 |
| `combinedMassW` | calculate.py:173-181 |
| `aggregateMomenta` | calculate.py:402-430 |

## Model/NonFinite.lean

| definition | models |
|---|---|
| `IsInf` | calculate.py:192-222 |
| `abs` | calculate.py:214, 256 |
| `hypot` | data.py:1492, 1500 |
| `div` | data.py:1537, calculate.py:217 |
| `sqrt` | calculate.py:258-259 |
| `copysign` | calculate.py:220, 258 |
| `log` | calculate.py:217 |
| `arctanh` | data.py:1537 |
| `arctan2` | data.py:1560, 1577 |
| `P4F` | data.py:1308-1345 |
| `rapidityF` | calculate.py:192-222 |
| `rootDiffF` | calculate.py:224-260 |
| `of` | data.py:1308-1345 |
| `pt` | data.py:1522-1525 |
| `spatialMag` | data.py:1498-1500 |
| `eta` | data.py:1527-1538 |
| `rapidity` | data.py:1540-1548 |
| `phi` | data.py:1550-1572 |
| `theta` | data.py:1574-1577 |
| `mass` | data.py:1579-1584 |
| `massT` | data.py:1586-1595 |
| `shiftRapidity` | data.py:1597-1621 |
| `ExpRec.toP4F` | data.py:1690-1694 |
| `SumTree.evalF` | calculate.py:186 |
| `sumF` | calculate.py:186 |
| `sqrtOrZero` | calculate.py:186-188 |
| `combinedMassF` | calculate.py:180-189 |

## Model/Optimise.lean

| definition | models |
|---|---|
| `Opt` | calculate.py:571-627 |
| `Opt.run` | calculate.py:571-627 |
| `thrust` | calculate.py:571-627 |
| `spherocity` | calculate.py:744-797 |

## Model/Partition.lean

| definition | models |
|---|---|
| `argminFrom` | select.py:418 |
| `argmin` | select.py:418 |
| `allocate` | select.py:418 |
| `partitionVertex` | select.py:376-421 |
| `partitionLeaf` | select.py:466-475 |
| `Mask.mapLeaves` | select.py:877-891 |
| `Mask.mapLeavesKids` | select.py:877-891 |
| `mapTop` | select.py:464-475 |
| `hadronVtxPartons` | select.py:346-373 |
| `partitionLoop` | select.py:462-475 |
| `partitionDescendants` | select.py:424-476 |

## Model/PartitionMem.lean

| definition | models |
|---|---|
| `partitionLeafH` | select.py:466-475, select.py:413, select.py:420, data.py:578-582 |
| `walkKidsH` | select.py:888-891 |
| `walkH` | select.py:877-891 |
| `walkTopH` | select.py:464-475 |
| `partitionLoopH` | select.py:462-475 |
| `partitionCopyH` | select.py:424-476 |
| `partitionDescendantsH` | select.py:424-476 |

## Model/Pdg.lean

| definition | models |
|---|---|
| `absWrap` | data.py:1195-1230 |
| `isin` | data.py:1195-1230 |
| `pdgMask` | data.py:1195-1230 |
| `inRange` | data.py:2090-2124 |
| `hardMask` | data.py:2126-2143 |
| `fromName` | data.py:1125-1132, data.py:1133-1134 |
| `pdgNames` | data.py:1232-1245 |

## Model/PdgProps.lean

| definition | models |
|---|---|
| `PdgTable` | data.py:1232-1239 |
| `TextProp` | data.py:1241-1249, 1267-1269 |
| `NumProp` | data.py:1251-1258, 1271-1274, 1283-1297 |
| `BoundProp` | data.py:1260-1265, 1276-1281 |
| `megaToGiga` | data.py:1138 |
| `getText` | data.py:1232-1234 |
| `getNum` | data.py:1232-1234 |
| `getRange` | data.py:1236-1239 |
| `pdgText` | data.py:1241-1249, 1267-1269 |
| `pdgNum` | data.py:1251-1258, 1271-1274, 1283-1297 |
| `scaleRange` | data.py:1262-1265, 1278-1281 |
| `pdgBounds` | data.py:1260-1265, 1276-1281 |

## Model/Range.lean

| definition | models |
|---|---|
| `ovf` | calculate.py:256-260, 433-440 |
| `addO` | calculate.py:256-260, 433-440 |
| `subO` | calculate.py:256-260 |
| `mulO` | calculate.py:256-260, 433-440 |
| `divO` | calculate.py:523 |
| `sqrtO` | calculate.py:256-260, 433-440 |
| `hypotO` | data.py:1487-1500 |
| `rootDiffO` | calculate.py:224-260 |
| `P4.massTO` | data.py:1586-1595 |
| `P4.massO` | data.py:1487-1500, 1579-1584 |
| `threeNormO` | calculate.py:432-440 |
| `dotO` | calculate.py:515 |
| `thrustLoopO` | calculate.py:505-522 |
| `thrustO` | calculate.py:471-527 |

## Model/RawMask.lean

| definition | models |
|---|---|
| `RawOp` | data.py:719-722 |
| `Agg.value` | data.py:682-685 |
| `RawOp.ofAgg` | data.py:719-722 |
| `RawOp.parse` | data.py:724-729 |
| `RMask` | data.py:460, 695-722 |
| `RMask.data` | data.py:573-576, 880-896 |
| `RMask.dataKids` | data.py:869, 876 |
| `rawReduce` | data.py:866-878 |
| `RMask.copy` | data.py:517-519, 858-864 |
| `RMask.copyKids` | data.py:860-862 |
| `RMask.slice` | data.py:524-527, 792-796 |
| `RMask.sliceKids` | data.py:794-796 |
| `RMask.visitItem` | data.py:990-994 |
| `RMask.visitKids` | data.py:984-994 |
| `rawFlattenRise` | data.py:984-996 |
| `rawToDict` | data.py:897-904 |
| `GOp` | data.py:731-733, 800-806, 818-820 |
| `GOp.run` | data.py:731-733, 800-806, 818-820 |
| `runGroup` | data.py:731-733, 800-806, 818-820 |
| `GKey` | data.py:772-798 |
| `rawSelect` | data.py:788-791 |
| `rawGetitem` | data.py:772-798 |
| `StructArr` | data.py:735-741 |
| `fromStructured` | data.py:735-741 |
| `RTree` | data.py:747-761 |
| `RTree.add` | data.py:757-758 |
| `RMask.subBranch` | data.py:754-757 |
| `RMask.makeTree` | data.py:752-759 |
| `Agg.name` | data.py:682-685 |
| `rawRich` | data.py:747-761 |
| `RTree.lines` | data.py:763-767 |
| `RTree.linesKids` | data.py:763-767 |
| `rawStr` | data.py:763-767 |

## Model/Rounded.lean

| definition | models |
|---|---|
| `Arith` | calculate.py:192-260 |
| `Arith.exact` | calculate.py:192-260 |
| `rootDiffTwoSquaresA` | calculate.py:224-260 |
| `rapidityOfA` | calculate.py:192-222 |
| `P4.ptA` | data.py:1487-1496, 1522-1525 |
| `P4.spatialMagA` | data.py:1498-1500 |
| `P4.massA` | data.py:1579-1584 |
| `P4.massTA` | data.py:1586-1595 |
| `P4.rapidityA` | data.py:1540-1548 |
| `P4.etaA` | data.py:1527-1538 |

## Model/RoundedPrune.lean

| definition | models |
|---|---|
| `ArithP` | select.py:992-994 |
| `ArithP.exact` | select.py:992-994 |
| `expA` | select.py:992 |
| `withinCentreA` | select.py:993-994 |
| `centroidPruneA` | select.py:985-998 |

## Model/RoundedR.lean

| definition | models |
|---|---|
| `ArithR` | calculate.py:290-296 |
| `ArithR.exact` | calculate.py:290-296 |
| `mulConjA` | calculate.py:295, 332 |
| `dphiA` | calculate.py:295, 332 |
| `subFlA` | calculate.py:292, 329 |
| `deltaRCellA` | calculate.py:292-296, 329-333 |
| `rapDistA` | data.py:1540-1548, 1785-1797 |
| `etaDistA` | data.py:1527-1538, 1785-1797 |

## Model/RoundedSets.lean

| definition | models |
|---|---|
| `timesFlag` | calculate.py:876-877 |
| `jaccardLoopO` | calculate.py:873-877 |
| `jaccardO` | calculate.py:848-880 |

## Model/RoundedShape.lean

| definition | models |
|---|---|
| `pyDivA` | calculate.py:432-440 |
| `threeNormA` | calculate.py:432-440 |
| `axisA` | calculate.py:501-504, 664 |
| `dotA` | calculate.py:515 |
| `thrustLoopA` | calculate.py:505-522 |
| `thrustA` | calculate.py:471-527 |
| `crossA` | calculate.py:670-672 |
| `sphLoopA` | calculate.py:666-695 |
| `spherocityA` | calculate.py:630-700 |
| `cInnerA` | calculate.py:805-810 |
| `cOuterA` | calculate.py:799-811 |
| `cParameterA` | calculate.py:799-838 |

## Model/RoundedShift.lean

| definition | models |
|---|---|
| `ArithS` | data.py:1597-1621, 1713-1740 |
| `ArithS.exact` | data.py:1597-1621, 1713-1740 |
| `P4.shiftPhiA` | data.py:1713-1740 |
| `P4.shiftRapidityA` | data.py:1597-1621 |

## Model/RoundedSplit.lean

| definition | models |
|---|---|
| `ArithM` | transform.py:92-187 |
| `ArithM.exact` | transform.py:92-187 |
| `ArithS.sequential` | transform.py:92-187 |
| `skewA` | transform.py:122-126 |
| `rotationMatrixA` | transform.py:92-132 |
| `splitMomentumA` | transform.py:135-187 |
| `splitHardestA` | transform.py:190-263 |

## Model/RoundedSum.lean

| definition | models |
|---|---|
| `SumTree` | calculate.py:82-85, 129, 186 |
| `SumTree.leaves` | calculate.py:82-85, 129, 186 |
| `SumTree.depth` | calculate.py:82-85, 129, 186 |
| `SumTree.eval` | calculate.py:82-85, 129, 186 |
| `sumA` | calculate.py:82-85, 129, 186 |
| `totalA` | calculate.py:129, 186 |
| `minkTerms` | calculate.py:182, 186 |
| `combinedMassA` | calculate.py:135-189 |
| `weightedMeanA` | calculate.py:82-85 |

## Model/Select.lean

| definition | models |
|---|---|
| `combos` | select.py:1001-1064 |
| `andAll` | select.py:1044 |
| `setEq` | select.py:1055-1059 |
| `isSinglet` | select.py:1055-1059 |
| `outgoingMask` | select.py:1043, data.py:2126-2143 |
| `singletParts` | select.py:1001-1064 |
| `colorSinglets` | select.py:1001-1064 |
| `npHypot` | select.py:993-994 |
| `Fl.ltB` | select.py:993-994 |
| `angleFrom` | select.py:992-993 |
| `withinCentre` | select.py:993-994 |
| `isWithin` | select.py:947-998 |
| `centroidPrune` | select.py:986-998 |
| `PmuArg` | select.py:48-55, 985 |
| `paramCheck` | select.py:48-55, 985 |
| `centroidPruneCall` | select.py:947-998 |
| `FjAlgo` | select.py:141-148 |
| `Jet` | select.py:58-165 |
| `TopK` | select.py:130-133 |
| `TopK.bad` | select.py:130-133 |
| `TopK.cut` | select.py:159 |
| `fjAlgo` | select.py:139-148 |
| `jetMask` | select.py:162-164 |
| `jetMasks` | select.py:162-165 |
| `etaWithin` | select.py:58-165 |
| `fastjetClusters` | select.py:58-165 |

## Model/ShareMem.lean

| definition | models |
|---|---|
| `Member` | data.py:651-661 |
| `placeMember` | data.py:653-660 |
| `placeMembers` | data.py:651-661 |
| `newGroup` | data.py:716-722 |
| `pickRefs` | data.py:790 |
| `selectH` | data.py:787-791 |
| `leafMasksH` | select.py:894-919 |
| `dataH` | data.py:573-576, 880-895 |
| `aggMembers` | data.py:978-980 |
| `visitKidsH` | data.py:987-994 |
| `visitItemH` | data.py:990-994 |
| `How` | data.py:938-996 |
| `flattenH` | data.py:938-996 |

## Model/ShiftEta.lean

| definition | models |
|---|---|
| `Fl.addR` | data.py:1691, 1696 |
| `Fl.sub` | data.py:1703, calculate.py:292 |
| `Fl.IsClose` | data.py:1699 |
| `ShiftEtaOut` | data.py:1698-1705 |
| `shiftEtaLoop` | data.py:1698-1705 |
| `shiftEta` | data.py:1623-1711 |
| `ExpRec` | data.py:1690-1694 |
| `shiftEtaExp` | data.py:1690-1694 |
| `shiftEtaExperimental` | data.py:1690-1694 |

## Model/SignedZero.lean

| definition | models |
|---|---|
| `Sg` | calculate.py:292-296, 329-333 |
| `IsNeg` | calculate.py:192-222 |
| `mul` | calculate.py:295, 332 |
| `add` | calculate.py:295, 332 |
| `neg` | calculate.py:295, 332 |
| `sub` | calculate.py:295, 332 |
| `SgC` | data.py:1482-1485 |
| `val` | calculate.py:292-296, 329-333 |
| `conj` | calculate.py:295, 332 |
| `mul` | calculate.py:295, 332, data.py:1737 |
| `angle` | calculate.py:295, 332, data.py:1560, 1577 |
| `deltaRCellS` | calculate.py:292-296, 329-333 |
| `P4S` | data.py:1308-1345 |
| `copysignInfS` | calculate.py:192-222 |
| `copysignS` | calculate.py:192-222 |
| `vals` | data.py:1527-1538 |
| `xyPol` | data.py:1482-1485 |
| `ztPol` | data.py:1487-1496 |
| `phi` | data.py:1550-1572 |
| `theta` | data.py:1574-1577 |
| `eta` | data.py:1527-1538 |
| `rapidity` | data.py:1540-1548, calculate.py:192-222 |
| `rotOp` | data.py:1733-1736 |
| `shiftPhi` | data.py:1713-1740 |
| `deltaR` | data.py:1785-1797 |

## Model/SingleCount.lean

| definition | models |
|---|---|
| `Arith32` | calculate.py:348-349 |
| `Arith32.exact` | calculate.py:348-349 |
| `count32` | calculate.py:348 |
| `clustCoeff32` | calculate.py:341-349 |
| `clusterCoeffDistbn32` | calculate.py:352-390 |

## Model/Table.lean

| definition | models |
|---|---|
| `Cell` | data.py:295-346 |
| `dequePush` | data.py:295-346 |
| `itTail` | data.py:295-346 |
| `Shown` | data.py:295-346 |
| `tableRepr` | data.py:295-346 |
| `zipColumns` | data.py:2292-2293 |
| `tableColumn` | data.py:2278-2291 |
| `PSet.tableList` | data.py:2270-2294 |
| `PSet.table` | data.py:2296-2298 |
| `Graph.table` | data.py:2719-2726 |

## Model/Threads.lean

| definition | models |
|---|---|
| `CachedClass` | data.py:1487-1595, 2486-2503 |
| `Ins` | data.py:1487-1595, 2486-2503 |
| `Thr` | data.py:1487-1595, 2486-2503 |
| `World` | data.py:1487-1595, 2486-2503 |
| `unwind` | data.py:1487-1595, 2486-2503 |
| `attrBody` | data.py:1487-1595, 2486-2503 |
| `argOf` | data.py:1487-1595, 2486-2503 |
| `thrStep` | data.py:1487-1595, 2486-2503 |
| `thrRun` | data.py:1487-1595, 2486-2503 |
| `thrStart` | data.py:1487-1595, 2486-2503 |
| `MAttr` | data.py:1487-1595 |
| `MVal` | data.py:1487-1595 |
| `momClass` | data.py:1487-1595 |
| `AAttr` | data.py:2486-2503 |
| `AVal` | data.py:2486-2503 |
| `adjClass` | data.py:2486-2503, 2626-2652 |

## Model/Transform.lean

| definition | models |
|---|---|
| `SphericalAngle` | transform.py:19-28 |
| `SphericalAngle.toAxis` | transform.py:44-46 |
| `axisToAngles` | transform.py:49-54 |
| `argmax` | transform.py:66-89 |
| `cross3` | transform.py:66-89 |
| `softHardAxis` | transform.py:66-89 |
| `rotationMatrix` | transform.py:92-132 |
| `splitMomentum` | transform.py:135-187 |
| `splitHardest` | transform.py:190-263 |
| `npArccos` | data.py:1408-1413 |
| `sphericalElem` | data.py:1408-1413 |
| `sphericalElems` | data.py:1348-1422 |
| `fromSphericalUniform` | data.py:1348-1422 |

## Model/Ufunc.lean

| definition | models |
|---|---|
| `Cls` | data.py:215-219 |
| `Cls.kind` | data.py:222-224 |
| `Opd` | data.py:206-212 |
| `UVal` | data.py:222-224 |
| `URes` | data.py:222-234 |
| `Opd.handled` | data.py:206-212, base.py:137, 216 |
| `Opd.unwrap` | data.py:215-219 |
| `Cls.make` | data.py:1143-1144, 1426-1427, 1841-1842, 1943-1944, 2037-2038, data.py:222-224 |
| `Cls.makeAll` | data.py:222-224 |
| `Cls.finish` | data.py:222-234 |
| `arrayUfunc` | data.py:166-234, data.py:1162-1163, 1429-1430, 1844-1845, 1946-1947, 2040-2041 |
| `Opd.override` | data.py:166-234 |
| `tryOverrides` | data.py:166-234 |
| `npCall` | data.py:166-234 |

## Model/Warnings.lean

| definition | models |
|---|---|
| `WAct` | calculate.py:184, data.py:1536 |
| `WCat` | base.py:286 |
| `WFilter` | calculate.py:184, data.py:1536 |
| `WFilter.covers` | calculate.py:184, data.py:1536 |
| `actionFor` | calculate.py:184, data.py:1536, 1564 |
| `addFilter` | calculate.py:184, data.py:1536 |
| `WCall` | calculate.py:135-189, data.py:1527-1538, 1550-1572 |
| `WRes` | calculate.py:183-189, data.py:1535-1538, 1559-1572 |
| `WIns` | calculate.py:183-189, data.py:1535-1538, 1559-1572 |
| `WCall.code` | calculate.py:183-189, data.py:1535-1538, 1559-1572 |
| `WThr` | calculate.py:183-189, data.py:1535-1538, 1559-1572 |
| `WWorld` | calculate.py:183-189, data.py:1535-1538, 1559-1572 |
| `massSq` | calculate.py:180-186 |
| `massUnder` | calculate.py:185-188 |
| `etaUnder` | data.py:1537 |
| `phiUnder` | data.py:1559-1572 |
| `warnStep` | calculate.py:183-189, data.py:1535-1538, 1559-1572 |
| `warnRun` | calculate.py:183-189, data.py:1535-1538, 1559-1572 |
| `warnStart` | calculate.py:183-189, data.py:1535-1538, 1559-1572 |
