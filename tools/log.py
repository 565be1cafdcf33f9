"""Collects the results of tools/mutate.py (given files) into seeded/LOG.jsonl."""
import json,re,sys
TIGHT={
 ("podMean","zero"):["pod_unknown_mean"],
 ("podReconstruct","none time"):["pod_reconstruct_given"],
 ("isReal1","any"):["real_detection_exact"],
 ("blockHat",""):["hatPoint_spec","fit_formula"],
 ("winWeight",""):["window_gain","hatPoint_spec","fit_formula"],
 ("fitWeights","fun i => var i"):["first_fit_weights"],
 ("extractSequences","fh < 0"):["extract_horizon_zero"],
 ("modeCol","- 1"):["ortho_negative_exact"],
 ("snapShape",""):["data_shape_recognised","data_shape_fails"],
 ("initShape1",""):["data_shape_recognised","data_shape_mismatch"],
 ("defineWeights","fun _ => 0"):["default_weights_one"],
 ("kept","max"):["stream_fit_rest"],
 ("tol","1000"):["ortho_real_partial","ortho_same"],
}
TIGHT.update({("floatOf","8"):["stored_float_exact"],("call","(w, .unit)"):["chdir_mixed_fails"],("Recon.file",""):["recon_kept_partial"],("objSavedir","id ("):["params_exact","params_partial"],("objModes","10 ^ 9"):["params_exact","params_partial"]})
TIGHT.update({("abscissa","some f"):["spectrum_position"]})
NOTE={("linspace","k"):"equivalent: every use in the program starts at 0",
("mustWait","scan, r, q => r"):"contract of MPI, not code of the repository: the theorems hold for every library that waits for at least these ranks, so either direction is covered",
("gramShape","[1, 1]"):"equivalent on all reachable sizes: a fit has at least 2 blocks, and for a single value both shapes broadcast alike",
}
NOTE.update({("convModesArr","nFreqR, r.xsize"):"equivalent: a call that succeeds has n_freq_r = n_freq (now proved: conv_succeeds_whole_axis)",("convolve","1 then none"):"equivalent: a call that succeeds has at least two frequencies (now proved: conv_succeeds_whole_axis)"})
NOTE.update({("assignSlice","x ++ buf.take"):"equivalent: the broadcast branch needs a source of one row for a longer slice, which no reader produces",("bcast2","b = d ∧ b = 1"):"equivalent on all reachable sizes: the second operand always has one column"})
TIGHT.update({("oEntries","=> 2"):["ortho_int_one_point"],("saveBlock","i.2 i.2"):["reads_written"]})
TIGHT.update({("amax","some 0"):["errors_degenerate"]})
NOTE.update({("phiArr","else 1"):"equivalent: entries outside the shape are never observed (arrays are compared on their index range)",("fitModes","≥"):"equivalent: both branches give n_blocks when the numbers are equal"})
TIGHT.update({("oEntries","1) + y"):["ortho_int_one_point"],("oEntries","2) *"):["ortho_int_one_point"],("saveBlock",""):["reads_written"],("readBlock",""):["reads_written"],("swapBytes",""):["other_order"],
("anyImag","c.all"):["anyImag_iff"],("readCalls","uce 1"):["fit_ranks_exist"],("assignSlice",""):["assign_slice"],("matReadFail","e (3 - 2 *"):["mat_error_position"],("matReadFail","3 + 1 * k"):["mat_error_position"],("savePass","some 1), .wr"):["reads_written"],
("tracerRows","range (1 +"):["tracer_rows_used"],("npLoadSparse","any"):["parallel_crash_hole_exact"],("fitInputs","true"):["fit_inputs_exact"]})
NOTE.update({("squeeze","takeWhile"):"equivalent on all shapes that reach it",("bcast2",""):"equivalent on reachable sizes",("matContent","un _ => 1"):"the value given to unreadable files is never used",("hi","adD 1"):"the default of an empty list is never used",("bufEntry","etD 1"):"positions of the buffer that were not written are never read (C15)",("convModesFile","0 0 1"):"the default is never reached"})
NOTE.update({("wLocal","D 0 1"):"the default of an index that is always given is never used",("diagShape","max n m"):"np.diag of a two-dimensional argument is never reached by the code"})
NOTE.update({("streamSetup","!R"):"every rank still makes the same calls, so the claim (all ranks end, or all hang) stays true of the edited program",("updateCalls","[Coll.barrier, .allreduce]"):"as above: all ranks make the same calls",("streamStore","replicate 1"):"as above: all ranks make the same calls",("updateF","etD 1"):"the default is never used: the value is present whenever it is read",("streamEigsFile","nt)).2   l"):"equivalent: both initial bounds are arrays of zeros"})
NOTE.update({("plotMode","= 1 ∧"):"equivalent: a grid with one row or column raises in contourf as well",("oneStage","=> 1"):"the default of an empty data set is never used"})
TIGHT.update({("cubeCoords","(x 1).is"):["slice_first_missing_fails"]})
NOTE.update({("Stored.nModes","stD 1"):"the default of an empty shape is never used"})
NOTE.update({("scaleVars","stD 1"):"the default of an empty list is never used: every list of indices has an entry",("streamEigsFile",")).2"):"equivalent: both tables of bounds are zeros of the same shape",("streamEigsFile",")).1"):"equivalent: both tables of bounds are zeros of the same shape"})
NOTE.update({("loadRank","=> 1⟩"):"value in a branch that cannot be reached (the guard has checked that every frequency loads)"})
TIGHT.update({("loadRank","true"):["reuse_any_grid_exact","reuse_other_grid_partial"]})
NOTE.update({("phiFloatArr","stD 1"):"the default of an empty index list is never used: every index of the file has an entry"})
TIGHT.update({("modelInference","(x, 1))"):["inference_uses_real"]})
NOTE.update({("varValues","stD 1"):"the default for an array without axes is never used: snapshots have at least one axis",("streamEigsFile","lse 1"):"the branch is never reached: the table has exactly as many columns as indices that pass the test"})
TIGHT.update({("hErr","if 1 ≤ d.len"):["h1_degenerate"]})
NOTE.update({("convModesArr","| _ => 1"):"equivalent: unravel of a shape with three axes always has three entries",("modesOf","stD 1 < k"):"equivalent: indices are never empty",("modesF","stD 1 < k"):"equivalent: indices are never empty",("matArr","=> 1"):"equivalent: entries outside the shape are never read"})
NOTE.update({('streamParallel','=> 1⟩⟩'):'equivalent: the default is for ranks that do not exist'})
TIGHT.update({('mustWait','=> r ≤ w'):['pass_error_exact']})
NOTE.update({('complexPredict','(·.2))).'):'equivalent: only the length of the prediction is used there, and a network returns the same number of columns for every window (hypothesis of complexPredict_parts)'})
NOTE.update({("lo","(x.headD 1)"):"equivalent: coordinates are never empty",("hi","(x.headD 1)"):"equivalent: coordinates are never empty",("matRead","D 2 1]"):"equivalent: indices have four entries",("phiArr","stD 1 < n"):"equivalent: indices are never empty"})
TIGHT.update({("x1After","true ∨ k"):["shift180_exception_partial"]})
TIGHT.update({("nChunks",") * (p *"):["chunk_count","chunk_size_partial"]})
NOTE.update({("moveLastFirst","adD 1])"):"equivalent: indices are never empty",("blockLoop","f re ≥ rs"):"equivalent: for equal bounds an empty slice is assigned and the state does not change",("podCoeffsPhases","(.paramsC k c, some 1)"):"equivalent: the number is the name of a region of the file; all ranks use the same one",("geo2D","D 0 1) (i"):"equivalent: indices have three entries"})
TIGHT.update({("axisLimits","(105 * 100)"):["axis_limits_margin"]})
TIGHT.update({("flScale","some (fl (x / v))"):["scaling_double_zero_row"]})
NOTE.update({("mustWait","=> q < r"):"equivalent: a rank entering a call has entered it, so waiting for itself is no condition",("freshQ","D 0 1) de"):"equivalent: indices are never empty"})
MAP=dict(x.split(':') for x in '''blockdist:C01/C02 argmax:C03 distribute:C03/C04 distributeDimension:C03/C04 displ:C05 rankWrites:C05 npSave:C05 npyLoad:C06 defaultCount:C07 localGram:C08 localStat:C09 opStat:C09 step1:C11/C12 getData1:C11/C12 storeFloat:C13 isReal1:C86 dictIntervals:C14 dictPieces:C14 dictSet:C15 fileTime:C15 selLabels:C15 step2:C15 inputData2:C15 message:C15 insertName:C16 matInput:C16 nBlocks:C17 feasible:C17 offset:C17 nOverlap:C18 blockLoop:C19 getBlock:C19 tMean:C21 subtractMean:C21 parseMean:C21 areBlocksPresent:C33 source:C33 reshapeInfer:C34 npLoad:C34 assignTo:C34 cachedQ:C34 freshQ:C34 stepOp:C35 saveOps:C35 reuseFit:C35 npLoadSparse:C35 cacheItems:C35 names:C37 fitModes:C43 modesSaved:C43 fitWeights:C44 nanvar:C45 normWeightPar:C45 normalizeBlk:C71 prepareBlocks:C71 blockHat:C83/C85 winWeight:C83/C85 argminGo:C60 findNearestFreq:C60 selectBand:C46/C72 arange:C46/C72 nearestCoord:C61 meshDist:C61 fillFreq:C49 fillModes:C49 timeIdx:C50 mMat:C47 qMat:C47 lInv:C47 mInv:C47 centred:C47 qPar:C48 half:C51 convWindow:C51 corrRange:C74 convLocal:C73 convSaved:C73 convAssign:C75 convModesFile:C76 xshapeOf:C77 putAt:C79 load:C79 savedModes:C78 fitData:C52 corrMat:C52 phiAll:C52 keep:C53 coeffsOp:C80 coeffPar:C81 diagShape:C67 gramShape:C68 longTMeanNt:C69 consume:C70'''.split())
seen=set(); out=[]
for f in sys.argv[1:]:
    for l in open(f):
        d=json.loads(l)
        if 'result' in d or d.get('model_error'): continue
        r={"definition":d["definition"],"file":d["file"],"edit":d["edit"],"claim":(MAP[d["definition"]]+" "+re.sub(r"^C\d+(/C\d+)* ?","",d["claim"]) if d["definition"] in MAP and "Pod" not in d["file"] else d["claim"]),"theorems_failed":d["failed"],"theorems_tightened":[]}
        if d["built"] or not d["failed"]:
            for (k,v),t in TIGHT.items():
                if k==d["definition"] and v in d["edit"].split(" -> ")[-1]: r["theorems_tightened"]=t
            for (k,v),t in NOTE.items():
                if k==d["definition"] and v in d["edit"].split(" -> ")[-1]: r["note"]=t
        out.append(r)
for r in out: print(json.dumps(r,ensure_ascii=False))
